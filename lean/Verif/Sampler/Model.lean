import Verif.Take.Model

/-!
# Samplers

Models `python/python/lance/sampler.py` (46-240, 242-257, 330-566), `rust/lance/src/dataset/take.rs` (400-428),
`python/python/lance/torch/dist.py` (60-78) and `python/python/lance/torch/data.py` (153-174).  Random choices
are arguments: a shuffle is any function that permutes its input, a random number any number in the range asked
for.
-/
namespace Verif.Sampler
open Verif

/-- Python's `range(start, stop, step)`.  (`step = 0` raises in Python; the theorems ask for positive steps.) -/
def pyRange (start stop step : Nat) : List Nat :=
  (List.range ((stop - start + (step - 1)) / step)).map (fun i => start + i * step)

/-! ## Sharding -/

/-- torch/dist.py:60-67 `get_global_world_size`. -/
def globalSize (distSize workers : Nat) : Nat := distSize * workers

/-- torch/dist.py:70-78 `get_global_rank`. -/
def globalRank (distRank workers worker : Nat) : Nat := distRank * workers + worker

/-- sampler.py:372-380 `ShardedFragmentSampler.iter_fragments`.  `shuffle` is `random.shuffle` after
`random.seed(self._seed)`. -/
def iterFragments {β : Type} (randomize : Bool) (shuffle : List β → List β) (frags : List β) (rank size : Nat) :
    List β :=
  let fs := if randomize then shuffle frags else frags
  (pyRange rank fs.length size).filterMap (fun i => fs[i]?)

/-- sampler.py:526-532 `_gen_ranges`. -/
def genRanges (total batchSize rank size : Nat) : List (Nat × Nat) :=
  (pyRange (rank * batchSize) total (size * batchSize)).map (fun s => (s, min (s + batchSize) total))

/-- take.rs:400-428 `take_scan`: one `take` for each range, the results in the order of the ranges.  A failed take
ends the stream. -/
def takeScan {α : Type} (split : List α → List (List α)) (frags : List (Read.Frag α)) :
    List (Nat × Nat) → Except Take.Fault (List (List α))
  | [] => .ok []
  | r :: rs => match Take.take split frags (List.range' r.1 (r.2 - r.1)) with
    | .error e => .error e
    | .ok b => match takeScan split frags rs with
      | .error e => .error e
      | .ok bs => .ok (b :: bs)

/-- sampler.py:517-543 `ShardedBatchSampler._sample_all`; `dataset.count_rows()` is the number of live rows. -/
def sampleAll {α : Type} (split : List α → List (List α)) (frags : List (Read.Frag α)) (randomize : Bool)
    (shuffle : List (Nat × Nat) → List (Nat × Nat)) (batchSize rank size : Nat) :
    Except Take.Fault (List (List α)) :=
  let ranges := genRanges ((frags.map Read.countRows).sum) batchSize rank size
  takeScan split frags (if randomize then shuffle ranges else ranges)

/-- sampler.py:443-449, one batch of the scan: the rows kept and the next `rows_to_skip`; `none` is an exception.
If fewer rows than `skip` came, `batch.slice` is asked for a negative length.  `strict`: the Arrow library refuses
that; otherwise the slice reports that negative number of rows. -/
def shardStep {α : Type} (strict : Bool) (size skip : Nat) (batch : List α) : Option (List α × Nat) :=
  let n : Int := (batch.length : Int) - skip
  if n < 0 ∧ strict then none
  else some ((pyRange 0 n.toNat size).filterMap (fun i => (batch.drop skip)[i]?),
    (((size : Int) - n % size) % size).toNat)

/-- sampler.py:463-466: `while big_batch.num_rows > batch_size`.  The fuel is enough if it is the number of rows. -/
def cut {α : Type} (batchSize : Nat) : Nat → List α → List (List α) × List α
  | 0, l => ([], l)
  | fuel + 1, l =>
    if l.length > batchSize then
      let r := cut batchSize fuel (l.drop batchSize)
      (l.take batchSize :: r.1, r.2)
    else ([], l)

/-- sampler.py:426-475 `_shard_scan`: `acc` holds the rows of `accumulated_batches`.  At the end
`Table.from_batches` of no batches raises, and so does `to_batches()[0]` of a table without rows. -/
def shardScan {α : Type} (strict : Bool) (size batchSize : Nat) : Nat → List α → List (List α) → Option (List (List α))
  | _, acc, [] => if acc = [] then none else some [acc]
  | skip, acc, b :: bs => match shardStep strict size skip b with
    | none => none
    | some (rows, skip') =>
      let acc := acc ++ rows
      if acc.length > batchSize then
        let r := cut batchSize acc.length acc
        (shardScan strict size batchSize skip' r.2 bs).map (r.1 ++ ·)
      else shardScan strict size batchSize skip' acc bs

/-- The part of Python's `heapq` that is used: `heappush` and `heappushpop` of (priority, item) entries, by their
documented contract. -/
structure Heap (β : Type) where
  push : List (Nat × β) → Nat × β → List (Nat × β)
  pushpop : List (Nat × β) → Nat × β → (Nat × β) × List (Nat × β)
  push_perm : ∀ h x, (push h x).Perm (x :: h)
  pushpop_perm : ∀ h x, ((pushpop h x).1 :: (pushpop h x).2).Perm (x :: h)
  pushpop_min : ∀ h x, ∀ y ∈ x :: h, (pushpop h x).1.1 ≤ y.1

/-- sampler.py:506-515, the randomizing loop; `prio` are the random numbers. -/
def reservoirShuffle {β : Type} (H : Heap β) (k : Nat) : List Nat → List (Nat × β) → List β → List β
  | _, h, [] => h.map (·.2)
  | prio, h, b :: bs =>
    let entry := (prio.headD 0, b)
    if h.length < k then reservoirShuffle H k prio.tail (H.push h entry) bs
    else
      let r := H.pushpop h entry
      r.1.2 :: reservoirShuffle H k prio.tail r.2 bs

/-- sampler.py:477-515 `_sample_filtered`; `batches` is what the filtered scan delivers.  (Without `randomize` the
scan is used up by `yield from` and the loop below it sees nothing.) -/
def sampleFiltered {α : Type} (strict : Bool) (H : Heap (List α)) (randomize : Bool) (prio : List Nat)
    (size batchSize rank : Nat) (batches : List (List α)) : Option (List (List α)) :=
  (shardScan strict size batchSize rank [] batches).map (fun out =>
    if randomize then reservoirShuffle H 256 prio [] out else out)

/-! ## Random samples -/

/-- sampler.py:80-101, the loop of `_efficient_sample` over the chunk starts: the positions taken in each step.
`rnd idx size` is `np.random.randint(0, size)`. -/
def effLoop (total n chunk sample : Nat) (rnd : Nat → Nat → Nat) : Nat → Nat → List Nat → List (List Nat)
  | _, _, [] => []
  | idx, sampled, i :: is =>
    if sampled ≥ n then []
    else
      let size := min chunk (total - i)
      let s := min sample size
      let offset := if s < size then i + rnd idx (size - s) else i
      List.range' offset s :: effLoop total n chunk sample rnd (idx + 1) (sampled + sample) is

/-- sampler.py:95-113: buffer the results of the takes and yield them once there are `batch_size` rows. -/
def bufferTakes {α : Type} (batchSize : Nat) : List α → List (List α) → List (List α)
  | buf, [] => if buf = [] then [] else [buf]
  | buf, t :: ts =>
    if (buf ++ t).length ≥ batchSize then (buf ++ t) :: bufferTakes batchSize [] ts
    else bufferTakes batchSize (buf ++ t) ts

/-- sampler.py:46-116 `_efficient_sample`: the positions of the rows yielded. -/
def efficientSample (total n batchSize maxTakes : Nat) (rnd : Nat → Nat → Nat) : List (List Nat) :=
  let chunk := total / maxTakes
  bufferTakes batchSize [] (effLoop total n chunk (n / maxTakes) rnd 0 0 (pyRange 0 total chunk))

/-- sampler.py:139-150: the rows of a shard that pass the filter. -/
def window (total shardSize : Nat) (keep : Nat → Bool) (shard : Nat) : List Nat :=
  let start := shard * shardSize
  let stop := min (start + shardSize) total
  (List.range' start (stop - start)).filter keep

/-- sampler.py:151-168, the loop of `_filtered_efficient_sample` over the shards read: `tables` are the rows of the
list `tables`, `remaining` is `remaining_rows`, `inBatch` is `remaining_in_batch`. -/
def filtLoop (batchSize : Nat) : List (List Nat) → List Nat → Nat → Int → List (List Nat)
  | [], _, _, _ => []
  | table :: rest, tables, remaining, inBatch =>
    if table.length > 0 then
      let table := table.take remaining
      let tables := tables ++ table
      let remaining := remaining - table.length
      let inBatch := inBatch - table.length
      if inBatch ≤ 0 then
        let inBatch : Int := (min batchSize remaining : Nat)
        tables.take batchSize ::
          (if remaining = 0 then []
           else if tables.length > batchSize then
            filtLoop batchSize rest (tables.drop batchSize) remaining (inBatch - (tables.drop batchSize).length)
           else filtLoop batchSize rest [] remaining inBatch)
      else if remaining = 0 then []
      else filtLoop batchSize rest tables remaining inBatch
    else filtLoop batchSize rest tables remaining inBatch

/-- sampler.py:119-168 `_filtered_efficient_sample`; `none` is the division by zero for `n = 0`.  The only filter
that it runs is "is not null", `keep`.  The ceilings are of exact quotients (Python's are of floats). -/
def filteredSample (total n batchSize targetTakes : Nat) (keep : Nat → Bool) (shuffle : List Nat → List Nat) :
    Option (List (List Nat)) :=
  let shardSize := (n + (targetTakes - 1)) / targetTakes
  if shardSize = 0 then none
  else
    let shards := shuffle (List.range ((total + (shardSize - 1)) / shardSize))
    some (filtLoop batchSize (shards.map (window total shardSize keep)) [] n (min batchSize n : Nat))

/-- sampler.py:225-231: the choices in batches.  The fuel is enough if it is the number of choices. -/
def batchesOf (batchSize : Nat) : Nat → List Nat → List (List Nat)
  | 0, _ => []
  | fuel + 1, l => if l = [] then [] else l.take batchSize :: batchesOf batchSize fuel (l.drop batchSize)

/-- The random choices of a call of `maybe_sample`. -/
structure Dice where
  /-- `np.random.choice(total, n, replace=False)` -/
  choice : Nat → Nat → List Nat
  /-- `np.random.randint(0, size)` in step `idx` -/
  randint : Nat → Nat → Nat
  /-- `random.shuffle` -/
  shuffle : List Nat → List Nat
  choice_len : ∀ total n, n ≤ total → (choice total n).length = n
  choice_nodup : ∀ total n, n ≤ total → (choice total n).Nodup
  choice_lt : ∀ total n, n ≤ total → ∀ i ∈ choice total n, i < total
  randint_lt : ∀ idx size, 0 < size → randint idx size < size
  shuffle_perm : ∀ l, (shuffle l).Perm l

/-- sampler.py:171-231 `maybe_sample`: the positions (among the live rows) of the rows of each batch.  `filt` is the
filter, if there is one; the full scan delivers batches `scan` of the matching rows. -/
def maybeSample (D : Dice) (scan : List Nat → List (List Nat)) (total n batchSize maxTakes : Nat)
    (filt : Option (Nat → Bool)) : Option (List (List Nat)) :=
  if n ≥ total then
    some (scan ((List.range total).filter (fun i => match filt with | none => true | some p => p i)))
  else match filt with
    | some keep => filteredSample total n batchSize maxTakes keep D.shuffle
    | none =>
      if n > maxTakes then some (efficientSample total n batchSize maxTakes D.randint)
      else some (batchesOf batchSize n (D.choice total n))

/-- sampler.py:242-257 `reservoir_sampling`; `none` is the exception of `rng.integers(0, 0)`. -/
def reservoirLoop {β : Type} (H : Heap β) (k : Nat) : List Nat → List (Nat × β) → List β → Option (List (Nat × β))
  | _, h, [] => some h
  | prio, h, b :: bs =>
    if k = 0 then none
    else
      let entry := (prio.headD 0, b)
      if h.length < k then reservoirLoop H k prio.tail (H.push h entry) bs
      else reservoirLoop H k prio.tail (H.pushpop h entry).2 bs

def reservoirSampling {β : Type} (H : Heap β) (k : Nat) (prio : List Nat) (stream : List β) : Option (List β) :=
  (reservoirLoop H k prio [] stream).map (·.map (·.2))

/-! ## Batches for PyTorch -/

/-- torch/data.py:153-174 `_buffer_arrow_batches`; `cur_size` is the number of rows in `buffer`. -/
def bufferBatches {α : Type} (size : Nat) : List (List α) → List (List α) → List (List α)
  | buffer, [] => if buffer = [] then [] else [buffer.flatten]
  | buffer, b :: bs =>
    if buffer.flatten.length > 0 ∧ buffer.flatten.length + b.length > size then
      buffer.flatten :: bufferBatches size [b] bs
    else bufferBatches size (buffer ++ [b]) bs

/-- torch/data.py:131-142 `LanceTensorDataset`: `__len__` and `__getitem__` (`none` is the end of the iteration). -/
def tensorLen (rows batchSize : Nat) : Nat := (rows + (batchSize - 1)) / batchSize

def tensorItem (rows batchSize idx : Nat) : Option (Nat × Nat) :=
  if idx ≥ tensorLen rows batchSize then none
  else some (idx * batchSize, min ((idx + 1) * batchSize) rows)

end Verif.Sampler
