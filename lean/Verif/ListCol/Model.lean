/-! Model of the reading and writing of list columns in file version 2.0: `rust/lance-encoding/src/encodings/logical/`
`list.rs` (offsets, requests, decoding) and `primitive.rs` (pages of a column, accumulation queue).

Numbers are `Nat` (a file has fewer than 2^63 items).  A panic is `none`. -/
namespace Verif.ListCol

/-- `Range<u64>`. -/
abbrev Rng := Nat × Nat

/-- `array.slice(a, b - a)`. -/
def slice {α : Type} (xs : List α) (r : Rng) : List α := (xs.drop r.1).take (r.2 - r.1)

/-! ## Pages of a column (primitive.rs) -/

/-- primitive.rs:170-177: skip the pages before the range.  The result is the number of the first row of the page and the
pages from there on; `none`: there is no such page. -/
def skipPages {α : Type} (start : Nat) : Nat → List (List α) → Option (Nat × List (List α))
  | _, [] => none
  | go, p :: ps => if p.length + go ≤ start then skipPages start (go + p.length) ps else some (go, p :: ps)

/-- primitive.rs:182-201: the ranges in the page that has `rows` rows and starts at row `go`, and what is left.  A range
that ends before the page starts makes `range.end - range.start` underflow (`none`). -/
def inPage (go rows : Nat) : List Rng → Option (List Rng × List Rng)
  | [] => some ([], [])
  | r :: rs =>
    if rows + go > r.1 then
      let s := max r.1 go
      if r.2 < s then none
      else
        let e := min (s - go + (r.2 - s)) rows
        if e + go ≥ r.2 then (inPage go rows rs).map (fun x => ((s - go, e) :: x.1, x.2))
        else some ([(s - go, e)], r :: rs)
    else some ([], r :: rs)

/-- The state of a `PrimitiveFieldSchedulingJob` (primitive.rs:140-148; `range_offset` stays 0). -/
structure Job (α : Type) where
  pages : List (List α)
  ranges : List Rng
  go : Nat

/-- primitive.rs:164-236 `schedule_next`: the ranges that are scheduled and, with them, the rows that the page decoder
gives for them. -/
def Job.next {α : Type} (j : Job α) : Option (List Rng × List α × Job α) :=
  match j.ranges with
  | [] => none
  | r :: _ =>
    match skipPages r.1 j.go j.pages with
    | none => none
    | some (_, []) => none
    | some (go, p :: ps) =>
      (inPage go p.length j.ranges).map (fun x => (x.1, x.1.flatMap (slice p), ⟨ps, x.2, go + p.length⟩))

/-- Number of rows of a list of ranges (primitive.rs:203, 238-240). -/
def rows (rs : List Rng) : Nat := (rs.map (fun r => r.2 - r.1)).sum

/-- The caller calls `schedule_next` until all rows are scheduled (`left` is the number of those that are not yet); each
call goes to a later page. -/
def Job.run {α : Type} (fuel : Nat) (left : Nat) (j : Job α) : Option (List (List α)) :=
  if left = 0 then some []
  else
    match fuel with
    | 0 => none
    | f + 1 =>
      match j.next with
      | none => none
      | some (rs, out, j') => (Job.run f (left - rows rs) j').map (out :: ·)

/-- primitive.rs:95-122, 248-256: a column of pages; empty pages are left out. -/
def readPages {α : Type} (pages : List (List α)) (ranges : List Rng) : Option (List α) :=
  let ps := pages.filter (fun p => 0 < p.length)
  (Job.run ps.length (rows ranges) ⟨ps, ranges, 0⟩).map List.flatten

/-- decoder.rs:1329-1349 `schedule_take`: one range for an index. -/
def takeRanges (indices : List Nat) : List Rng := indices.map (fun i => (i, i + 1))

/-! ## Writing pages (primitive.rs) -/

/-- primitive.rs:3235-3246 `AccumulationQueue` (row numbers, which version 2.0 does not use, are left out). -/
structure Queue (β : Type) where
  cache : Nat
  buffered : List β
  bytes : Nat

/-- primitive.rs:3263-3304 `insert`; `size` is `get_array_memory_size` and may be anything. -/
def Queue.insert {β : Type} (size : β → Nat) (q : Queue β) (a : β) : Option (List β) × Queue β :=
  let bytes := q.bytes + size a
  if bytes > q.cache then (some (q.buffered ++ [a]), ⟨q.cache, [], 0⟩)
  else (none, ⟨q.cache, q.buffered ++ [a], bytes⟩)

/-- primitive.rs:3306-3330 `flush`. -/
def Queue.flush {β : Type} (q : Queue β) : Option (List β) := if q.buffered.isEmpty then none else some q.buffered

/-- primitive.rs:3402-3412: cut an array in `k` parts of `size` rows, from `offset` on. -/
def cutParts {α : Type} (a : List α) (size : Nat) : Nat → Nat → List (List α)
  | 0, _ => []
  | k + 1, offset =>
    let chunk := min (a.length - offset) size
    slice a (offset, offset + chunk) :: cutParts a size k (offset + chunk)

/-- primitive.rs:3387-3421 `do_flush`: the pages for the arrays; `pageBytes` is `max_page_bytes` (not 0). -/
def doFlush {α : Type} (size : List α → Nat) (pageBytes : Nat) (arrays : List (List α)) : List (List α) :=
  match arrays with
  | [a] =>
    let k := min ((size a + pageBytes - 1) / pageBytes) a.length
    if k ≤ 1 then [a] else cutParts a ((a.length + k - 1) / k) k 0
  | _ => [arrays.flatten]

/-- primitive.rs:3426-3449: the pages of a stream of arrays. -/
def encodeFlat {α : Type} (size : List α → Nat) (pageBytes : Nat) : Queue (List α) → List (List α) → List (List α)
  | q, [] =>
    match q.flush with
    | none => []
    | some arrays => doFlush size pageBytes arrays
  | q, a :: rest =>
    match q.insert size a with
    | (none, q') => encodeFlat size pageBytes q' rest
    | (some arrays, q') => doFlush size pageBytes arrays ++ encodeFlat size pageBytes q' rest

/-! ## Writing lists (list.rs) -/

/-- An arrow list array: `n + 1` offsets, validity (or none) and values. -/
structure Arr (α : Type) where
  offsets : List Nat
  validity : Option (List Bool)
  values : List α
  deriving DecidableEq, Repr

/-- list.rs:530-534 `OffsetPageInfo`, from the page description (list.rs:1128-1138, decoder.rs:701-726). -/
structure Info where
  offsetsInPage : Nat
  nullAdj : Nat
  numItems : Nat
  deriving DecidableEq, Repr

/-- list.rs:981-993 `get_offset_span`. -/
def span (offsets : List Nat) : Nat := offsets.getLastD 0 - offsets.headD 0

/-- list.rs:997-1066 `extend_offsets_vec_u64`: what is added to `dest`.  (`base - start` may be negative, the sum is
not.) -/
def extendOffsets (offsets : List Nat) (validity : Option (List Bool)) (base adj : Nat) : List Nat :=
  let start := offsets.headD 0
  match validity with
  | some v => (List.zip (offsets.drop 1) v).map (fun x => x.1 + base - start + (if x.2 then 0 else adj))
  | none => (offsets.drop 1).map (fun o => o + base - start)

/-- list.rs:1068-1094 `do_encode_u64`. -/
def encodeU64 (adj : Nat) : List Nat → List (List Nat × Option (List Bool)) → List Nat
  | dest, [] => dest
  | dest, (o, v) :: rest => encodeU64 adj (dest ++ extendOffsets o v (dest.getLastD 0 % adj) adj) rest

/-- list.rs:916-947 `make_encode_task` with 1096-1140 `do_encode`: arrays of offsets and of validity become a page; an
empty validity array stands for "no validity". -/
def encodePage (batches : List (List Nat × List Bool)) : List Nat × Info :=
  let total := (batches.map (fun b => span b.1)).sum
  let adj := total + 1
  let num := (batches.map (fun b => b.1.length)).sum - batches.length
  (encodeU64 adj [] (batches.map (fun b => (b.1, if b.2.isEmpty then none else some b.2))), ⟨num, adj, total⟩)

/-- An array in the accumulation queue. -/
inductive Buf where
  | offs (o : List Nat)
  | vals (v : List Bool)
  deriving DecidableEq, Repr

/-- list.rs:919-922: even elements are offsets and odd ones validity; anything else panics in `as_boolean` or
`get_offset_span`. -/
def pairUp : List Buf → Option (List (List Nat × List Bool))
  | [] => some []
  | .offs o :: .vals v :: rest => (pairUp rest).map ((o, v) :: ·)
  | _ => none

/-- list.rs:904-914 `extract_validity`. -/
def extractValidity {α : Type} (a : Arr α) : List Bool := a.validity.getD []

/-- list.rs:949-969 `maybe_encode_offsets_and_validity`. -/
def maybeEncode {α : Type} (size : Buf → Nat) (q : Queue Buf) (a : Arr α) : Option (List Buf) × Queue Buf :=
  match q.insert size (.offs a.offsets) with
  | (some arrays, q') => (some (arrays ++ [.vals (extractValidity a)]), q')
  | (none, q') => q'.insert size (.vals (extractValidity a))

/-- list.rs:1179-1242, 971-977: the pages of offsets of a stream of arrays. -/
def encodeStream {α : Type} (size : Buf → Nat) : Queue Buf → List (Arr α) → Option (List (List Nat × Info))
  | q, [] =>
    match q.flush with
    | none => some []
    | some arrays => (pairUp arrays).map (fun b => [encodePage b])
  | q, a :: rest =>
    match maybeEncode size q a with
    | (none, q') => encodeStream size q' rest
    | (some arrays, q') =>
      match pairUp arrays, encodeStream size q' rest with
      | some b, some ps => some (encodePage b :: ps)
      | _, _ => none

/-- list.rs:1187-1211: the values that go to the items column. -/
def itemsOf {α : Type} (a : Arr α) : List α := slice a.values (a.offsets.headD 0, a.offsets.getLastD 0)

/-! ## Reading (list.rs) -/

/-- list.rs:69-79 `ListRequest`. -/
structure Req where
  num : Nat
  extra : Bool
  adj : Nat
  itemsOffset : Nat
  deriving DecidableEq, Repr

/-- list.rs:104-110: skip the pages before the range; `(items_offset, offsets_offset, pages)`. -/
def skipInfos (start : Nat) : Nat → Nat → List Info → Option (Nat × Nat × List Info)
  | _, _, [] => none
  | io, oo, p :: ps =>
    if oo + p.offsetsInPage ≤ start then skipInfos start (io + p.numItems) (oo + p.offsetsInPage) ps
    else some (io, oo, p :: ps)

/-- list.rs:121-145: cut a range at the ends of the pages. -/
def cutRange (start stop : Nat) (extra : Bool) :
    Nat → Nat → List Info → Option (List Req × Nat × Nat × List Info)
  | _, _, [] => none
  | io, oo, p :: ps =>
    if stop ≤ start then some ([], io, oo, p :: ps)
    else if oo + p.offsetsInPage ≥ stop then some ([⟨stop - start, extra, p.nullAdj, io⟩], io, oo, p :: ps)
    else
      (cutRange (oo + p.offsetsInPage) stop false (io + p.numItems) (oo + p.offsetsInPage) ps).map
        (fun x => (⟨oo + p.offsetsInPage - start, extra, p.nullAdj, io⟩ :: x.1, x.2))

/-- list.rs:88-150 `ListRequestsIter::new`: the list requests and the requests for offsets. -/
def newRequests : List Rng → Nat → Nat → List Info → Option (List Req × List Rng)
  | [], _, _, _ => some ([], [])
  | r :: rs, io, oo, ps =>
    match skipInfos r.1 io oo ps with
    | none => none
    | some (io, oo, ps) =>
      let extra := r.1 != oo
      match cutRange r.1 r.2 extra io oo ps with
      | none => none
      | some (reqs, io, oo, ps) =>
        (newRequests rs io oo ps).map
          (fun x => (reqs ++ x.1, (if extra then (r.1 - 1, r.2) else r) :: x.2))

/-- list.rs:153-182 `next`: the requests for the next `n` offsets, and those left. -/
def takeReqs : Nat → List Req → Option (List Req × List Req)
  | 0, q => some ([], q)
  | _ + 1, [] => none
  | n + 1, r :: q =>
    let m := if r.extra then n else n + 1
    if m ≥ r.num then (takeReqs (m - r.num) q).map (fun x => (r :: x.1, x.2))
    else some ([⟨m, r.extra, r.adj, r.itemsOffset⟩], ⟨r.num - m, false, r.adj, r.itemsOffset⟩ :: q)

/-- list.rs:283-299: shifted offsets; `none` if an end is less than a start. -/
def shiftOffsets (adj : Nat) (last : Nat) : List Nat → Option (List Nat × Nat)
  | a :: b :: rest =>
    if b % adj < a % adj then none
    else
      (shiftOffsets adj (last + (b % adj - a % adj)) (b :: rest)).map
        (fun x => ((last + (b % adj - a % adj)) :: x.1, x.2))
  | _ => some ([], last)

/-- list.rs:218-312 `decode_offsets`, the loop over the requests: `last` is `last_normalized_offset`, `at` is
`offsets_offset`.  Result: item ranges, normalized offsets (without the first 0), validity.  Indexing past the end
panics. -/
def decodeLoop (vals : List Nat) (adj : Nat) : Nat → Nat → List Req → Option (List Rng × List Nat × List Bool)
  | _, _, [] => some ([], [], [])
  | last, pos, r :: rs =>
    let first := if r.extra then pos else 0
    let num := if r.extra then r.num + 1 else r.num
    if num = 0 ∨ vals.length < first + num then none
    else
      let itemsStart := if r.extra then vals.getD first 0 % adj else 0
      let itemsEnd := vals.getD (first + num - 1) 0 % adj
      let valid := (slice vals (if r.extra then first + 1 else 0, (if r.extra then first + 1 else 0) + r.num)).map
        (fun o => decide (o < adj))
      let firstItem := vals.getD 0 0 % adj
      match shiftOffsets adj (if r.extra then last else firstItem) (slice vals (first, first + num)) with
      | none => none
      | some (offs, last') =>
        (decodeLoop vals adj last' (pos + num) rs).map (fun x =>
          ((if itemsStart < itemsEnd then [(itemsStart + r.itemsOffset, itemsEnd + r.itemsOffset)] else []) ++ x.1,
            (if r.extra then [] else [firstItem]) ++ offs ++ x.2.1, valid ++ x.2.2))

/-- list.rs:202-316 `decode_offsets`. -/
def decodeOffsets (vals : List Nat) (reqs : List Req) (adj : Nat) : Option (List Rng × List Nat × List Bool) :=
  (decodeLoop vals adj 0 0 reqs).map (fun x => (x.1, 0 :: x.2.1, x.2.2))

/-- What is loaded for a page of lists (list.rs:818-822 `IndirectlyLoaded`). -/
structure Loaded (α : Type) where
  offsets : List Nat
  validity : List Bool
  items : List α
  deriving DecidableEq, Repr

/-- list.rs:325-400 `indirect_schedule_task`; `readItems` reads ranges of the items column. -/
def loadPage {α : Type} (readItems : List Rng → Option (List α)) (vals : List Nat) (reqs : List Req) (adj : Nat) :
    Option (Loaded α) :=
  match decodeOffsets vals reqs adj with
  | none => none
  | some (rs, offs, valid) =>
    if rs.isEmpty then some ⟨offs, valid, []⟩
    else (readItems rs).map (fun items => ⟨offs, valid, items⟩)

/-- list.rs:431-495 `ListFieldSchedulingJob::schedule_next`, called until `left` is 0. -/
def runLists {α : Type} (readItems : List Rng → Option (List α)) (fuel left : Nat) (j : Job Nat) (q : List Req) :
    Option (List (Loaded α)) :=
  if left = 0 then some []
  else
    match fuel with
    | 0 => none
    | f + 1 =>
      match j.next with
      | none => none
      | some (rs, vals, j') =>
        match takeReqs (rows rs) q with
        | none => none
        | some ([], _) => none
        | some (r :: reqs, q') =>
          match loadPage readItems vals (r :: reqs) r.adj with
          | none => none
          | some l =>
            (runLists readItems f (left - ((r :: reqs).map Req.num).sum) j' q').map (l :: ·)

/-- decoder.rs:686-745, list.rs:411-427: a list column with pages of offsets and a column of items; pages without rows
are left out. -/
def readLists {α : Type} (pages : List (List Nat × Info)) (readItems : List Rng → Option (List α))
    (ranges : List Rng) : Option (List (Loaded α)) :=
  let ps := pages.filter (fun p => 0 < p.2.offsetsInPage)
  match newRequests ranges 0 0 (ps.map Prod.snd) with
  | none => none
  | some (reqs, offReqs) =>
    runLists readItems ps.length (rows ranges) ⟨ps.map Prod.fst, offReqs, 0⟩ reqs

/-- The state of a `ListPageDecoder` (list.rs:598-610) after everything is loaded. -/
structure Decoder (α : Type) where
  loaded : Loaded α
  drained : Nat
  itemsDrained : Nat

/-- list.rs:744-799 `drain` and 621-674 `ListDecodeTask::decode`: the next `n` lists as an array with offsets from 0.
`narrow`: offsets of 32 bits.  `none` is the error for too many items, or a panic. -/
def Decoder.drain {α : Type} (narrow : Bool) (n : Nat) (d : Decoder α) : Option (Arr α × Decoder α) :=
  let offs := slice d.loaded.offsets (d.drained, d.drained + n + 1)
  if d.loaded.offsets.length < d.drained + n + 1 ∨ d.loaded.validity.length < d.drained + n then none
  else
    let start := offs.headD 0
    let k := offs.getLastD 0 - start
    if narrow ∧ k > 2147483647 then none
    else
      let items := slice d.loaded.items (d.itemsDrained, d.itemsDrained + k)
      let valid := slice d.loaded.validity (d.drained, d.drained + n)
      some (⟨offs.map (· - start), if valid.all id then none else some valid, items⟩,
        ⟨d.loaded, d.drained + n, d.itemsDrained + k⟩)

/-- Drain batches of the sizes `ns`. -/
def Decoder.drains {α : Type} (narrow : Bool) : List Nat → Decoder α → Option (List (Arr α))
  | [], _ => some []
  | n :: ns, d =>
    match d.drain narrow n with
    | none => none
    | some (a, d') => (Decoder.drains narrow ns d').map (a :: ·)

/-- list.rs:681-690 `binary_search_to_end`: the walk over equal elements; `at` is where the walk starts. -/
def walkEnd (offsets : List Nat) (target : Nat) : Nat → Nat → Nat
  | 0, pos => pos
  | f + 1, pos =>
    if pos < offsets.length - 1 ∧ offsets.getD (pos + 1) 0 = target then walkEnd offsets target f (pos + 1) else pos

/-- list.rs:681-690 `binary_search_to_end`; `found` is the result of the standard `binary_search`: `inl` for `Ok`, `inr`
for `Err`. -/
def searchToEnd (offsets : List Nat) (target : Nat) (found : Nat ⊕ Nat) : Nat :=
  walkEnd offsets target offsets.length (match found with | .inl i => i | .inr i => i - 1)

/-- The results that the documentation of `slice::binary_search` allows on a sorted slice. -/
def IsSearch (xs : List Nat) (target : Nat) : Nat ⊕ Nat → Prop
  | .inl i => i < xs.length ∧ xs.getD i 0 = target
  | .inr i => i ≤ xs.length ∧ (∀ k, k < i → xs.getD k 0 < target) ∧ ∀ k, i ≤ k → k < xs.length → target < xs.getD k 0

/-- list.rs:721: the number of the last item that must be loaded before more than `need` lists are. -/
def itemsNeeded (offsets : List Nat) (need : Nat) : Nat := offsets.getD (need + 1) 0 - 1

end Verif.ListCol
