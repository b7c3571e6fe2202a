import Verif.Common.Sort
/-!
# Vector indices: the IVF index builder

`rust/lance/src/index/vector/builder.rs`, `rust/lance-index/src/vector/v3/shuffler.rs`,
`rust/lance-index/src/vector/{ivf,storage,transform}.rs` and `ivf/storage.rs`.

Vectors are an abstract type `V` and stored codes an abstract type `C`; a row address is the pair of
fragment id and offset.  A panic and an error are both `none`.
-/
namespace Verif.Vec

/-- A row address (fragment id and offset; in the code one `u64`). -/
abbrev Addr := Nat × Nat

/-- A fragment: its id, the vector column (`none` is a null vector), and the offsets in its deletion file
(`rust/lance-table/src/format/fragment.rs` 207-238). -/
structure Frag (V : Type) where
  id : Nat
  rows : List (Option V)
  dels : List Nat

/-- The rows a scan with row ids returns for a fragment
(`rust/lance/src/dataset/fragment.rs`, the deletion vector is applied while reading; see C28 for that). -/
def Frag.scan {V : Type} (f : Frag V) : List (Addr × Option V) :=
  f.rows.zipIdx.filterMap (fun vo => if vo.2 ∈ f.dels then none else some ((f.id, vo.2), vo.1))

/-- The row at an address: the fragment must exist, the offset must be in it and not deleted. -/
def lookup {V : Type} (frags : List (Frag V)) (a : Addr) : Option (Option V) :=
  match frags.find? (fun f => f.id == a.1) with
  | none => none
  | some f => if a.2 ∈ f.dels then none else f.rows[a.2]?

/-- `Dataset::take_rows` (`rust/lance/src/dataset/take.rs` 34-217): an error if a fragment is missing, deleted rows are left out. -/
def takeRows {V : Type} (frags : List (Frag V)) (ids : List Addr) : Option (List (Option V)) :=
  if ids.all (fun a => (frags.find? (fun f => f.id == a.1)).isSome) then some (ids.filterMap (lookup frags)) else none

/-- What an IVF index is trained to: the number of partitions, the normalization of the vectors (for cosine; otherwise the identity),
the partition of a vector (`compute_partitions_arrow_array`, `rust/lance-linalg/src/kmeans.rs` 668-716, null if no distance is a number),
the residual to the centroid of a partition (for product quantization; otherwise the vector itself) and the code.
`bufferSize` is that of `IvfShuffler::new` (`v3/shuffler.rs` 75-83).
`split` is how a scan cuts its rows into batches. -/
structure Cfg (V C : Type) where
  nparts : Nat
  norm : V → V
  part : V → Option Nat
  resid : Nat → V → V
  quant : V → C
  bufferSize : Nat
  split : List (Addr × V) → List (List (Addr × V))

/-- A row of the shuffled data: row id, vector, partition id. -/
structure SRow (V : Type) where
  id : Addr
  vec : V
  part : Option Nat

/-- `UInt32Array::value` of a null slot: the builder of the array put zero there. -/
def SRow.val {V : Type} (r : SRow V) : Nat := r.part.getD 0

/-- `NormalizeTransformer`, `PartitionTransformer` and `ResidualTransform` on one row
(`rust/lance-index/src/vector/transform.rs` 58-85, `ivf/transform.rs` 65-98, `residual.rs` 153-196). -/
def Cfg.transformRow {V C : Type} (c : Cfg V C) (r : Addr × V) : SRow V :=
  { id := r.1
    vec := c.resid ((c.part (c.norm r.2)).getD 0) (c.norm r.2)
    part := c.part (c.norm r.2) }

/-- `IvfTransformer::transform` (`rust/lance-index/src/vector/ivf.rs` 108-251), with `PartitionFilter` for `0..num_partitions`
(`ivf/transform.rs` 116-149).  Simplified: the filter stands before the residual in the code; multivectors (`Flatten`) are not modelled. -/
def Cfg.transform {V C : Type} (c : Cfg V C) (rows : List (Addr × V)) : List (SRow V) :=
  (rows.map c.transformRow).filter (fun r => decide (r.val < c.nparts))

/-- The key of `sort_to_indices` on the partition ids: nulls first. -/
def SRow.key {V : Type} (r : SRow V) : Nat :=
  match r.part with
  | none => 0
  | some p => p + 1

/-- The slices of equal partition ids of a sorted batch, the loop over `start` and `end` (`v3/shuffler.rs` 124-136). -/
def runs {V : Type} : List (SRow V) → List (Nat × List (SRow V))
  | [] => []
  | r :: rs =>
    match runs rs with
    | [] => [(r.val, [r])]
    | (p, g) :: gs => if p = r.val then (p, r :: g) :: gs else (r.val, [r]) :: (p, g) :: gs

/-- `partition_buffers[part_id].push(slice)`; an index out of bounds panics (`v3/shuffler.rs` 133-134).
A buffer is the concatenation of its batches. -/
def pushRun {α : Type} (bufs : List (List α)) (pg : Nat × List α) : Option (List (List α)) :=
  if pg.1 < bufs.length then some (bufs.modify pg.1 (· ++ pg.2)) else none

/-- One batch, sorted by partition and cut (`v3/shuffler.rs` 102-140).  Simplified: the sort keeps the order of rows of one partition. -/
def sortBatch {V : Type} (n : Nat) (batch : List (SRow V)) : Option (List (List (SRow V))) :=
  (runs (sortBy SRow.key batch)).foldlM pushRun (List.replicate n [])

/-- The state of `IvfShuffler::shuffle`: the buffers, the files of the partitions, their sizes, the number of batches and whether the
writers were opened (`v3/shuffler.rs` 98-153). -/
structure Shuf (V : Type) where
  bufs : List (List (SRow V))
  files : List (List (SRow V))
  sizes : List Nat
  counter : Nat
  opened : Bool

def Shuf.init {V : Type} (n : Nat) : Shuf V := ⟨List.replicate n [], List.replicate n [], List.replicate n 0, 0, false⟩

/-- Write out the buffers and count their rows (`v3/shuffler.rs` 183-195 and 199-206). -/
def Shuf.flush {V : Type} (s : Shuf V) : Shuf V :=
  { s with
    files := List.zipWith (· ++ ·) s.files s.bufs
    sizes := List.zipWith (fun n b => n + b.length) s.sizes s.bufs
    bufs := s.bufs.map (fun _ => []) }

/-- One batch of the stream (`v3/shuffler.rs` 148-196): the first one opens the writers with the schema of some buffered batch, and panics
if there is none. -/
def Shuf.push {V : Type} (n bufferSize : Nat) (s : Shuf V) (batch : List (SRow V)) : Option (Shuf V) :=
  match sortBatch n batch with
  | none => none
  | some shuffled =>
    let s1 := { s with bufs := List.zipWith (· ++ ·) s.bufs shuffled, counter := s.counter + 1 }
    if s.opened = false ∧ s1.bufs.all List.isEmpty then none
    else
      let s2 := { s1 with opened := true }
      if s2.counter % bufferSize = 0 then some s2.flush else some s2

/-- What a `ShuffleReader` gives: the files of the partitions with the sizes, or the whole stream if there is one partition. -/
inductive Reader (V : Type) where
  | files (sizes : List Nat) (files : List (List (SRow V)))
  | single (rows : List (SRow V))

/-- `IvfShuffler::shuffle` (`v3/shuffler.rs` 91-222). The final flush needs the writers. -/
def shuffle {V : Type} (n bufferSize : Nat) (batches : List (List (SRow V))) : Option (Reader V) :=
  if n = 1 then some (.single batches.flatten)
  else
    match batches.foldlM (Shuf.push n bufferSize) (Shuf.init n) with
    | none => none
    | some s => if s.opened = false ∧ n ≠ 0 then none else some (.files s.flush.sizes s.flush.files)

/-- `ShuffleReader::partition_size` (`v3/shuffler.rs` 292-294, 330-337): always one for a single partition. -/
def Reader.size {V : Type} (r : Reader V) (p : Nat) : Option Nat :=
  match r with
  | .files ns _ => ns[p]?
  | .single _ => some 1

/-- `ShuffleReader::read_partition` (`v3/shuffler.rs` 247-291, 313-329): the rows, and whether the partition id column is still there. -/
def Reader.read {V : Type} (r : Reader V) (p : Nat) : Option (List (Addr × V) × Bool) :=
  match r with
  | .files _ fs => (fs[p]?).map (fun rows => (rows.map (fun x => (x.id, x.vec)), false))
  | .single rows => some (rows.map (fun x => (x.id, x.vec)), true)

/-- `IvfIndexBuilder::shuffle_data` on some stream (`builder.rs` 371-436): without a batch all partitions are empty. -/
def Cfg.shuffleData {V C : Type} (c : Cfg V C) (data : List (Addr × V)) : Option (Reader V) :=
  match c.split data with
  | [] => some (.files (List.replicate c.nparts 0) [])
  | bs => shuffle c.nparts c.bufferSize (bs.map c.transform)

/-- The storage file of an index (`auxiliary.idx`): all rows, and the offsets and lengths of the partitions.
`partCol` is whether the partition id column is between the row ids and the codes. -/
structure IndexFile (C : Type) where
  rows : List (Addr × C)
  offsets : List Nat
  lengths : List Nat
  partCol : Bool

/-- `IvfModel::add_partition` and the write of its rows (`ivf/storage.rs` 106-113, `builder.rs` 651-687). -/
def IndexFile.add {C : Type} (x : IndexFile C) (rows : List (Addr × C)) : IndexFile C :=
  { x with
    rows := x.rows ++ rows
    offsets := x.offsets ++ [x.offsets.getLast?.getD 0 + x.lengths.getLast?.getD 0]
    lengths := x.lengths ++ [rows.length] }

/-- `IvfModel::row_range` and `IvfQuantizationStorage::load_partition` (`ivf/storage.rs` 122-126, `vector/storage.rs` 262-295). -/
def IndexFile.load {C : Type} (x : IndexFile C) (p : Nat) : Option (List (Addr × C)) :=
  match x.offsets[p]?, x.lengths[p]? with
  | some o, some n => some ((x.rows.drop o).take n)
  | _, _ => none

/-- `IvfModel::num_partitions`. -/
def IndexFile.nparts {C : Type} (x : IndexFile C) : Nat := x.lengths.length

/-- `IvfIndexBuilder::take_vectors` (`builder.rs` 764-785): the taken batch gets the asked for row ids as a column, an error if the number of
rows differs.  Simplified: the ids are not cut into chunks (a chunk with a missing row fails); an index has no row with a null vector. -/
def takeVectors {V : Type} (frags : List (Frag V)) (ids : List Addr) : Option (List (Addr × V)) :=
  match takeRows frags ids with
  | none => none
  | some vs => if vs.length = ids.length then (ids.zip vs).mapM (fun iv => iv.2.map (fun v => (iv.1, v))) else none

/-- `IvfIndexBuilder::take_partition_batches` (`builder.rs` 584-622) and the concatenation (`builder.rs` 497-501), which takes the columns of
the first batch. -/
def takePartition {V C : Type} (frags : List (Frag V)) (olds : List (IndexFile C)) (reader : Reader V) (p : Nat) :
    Option (List (Addr × V) × Bool) :=
  match olds.mapM (fun x => (x.load p).bind (fun rows => takeVectors frags (rows.map Prod.fst))), reader.size p with
  | some old, some sz =>
    if 0 < sz then (reader.read p).map (fun rb => (old.flatten ++ rb.1, old.flatten.isEmpty && rb.2))
    else some (old.flatten, false)
  | _, _ => none

/-- `merge_partitions` (`builder.rs` 624-760): an error without partitions, and a panic if no partition has a row (`storage_writer.unwrap()`). -/
def mergePartitions {C : Type} (parts : List (List (Addr × C) × Bool)) : Option (IndexFile C) :=
  if parts.isEmpty then none
  else
    match parts.find? (fun p => !p.1.isEmpty) with
    | none => none
    | some first => some (parts.foldl (fun x p => x.add p.1) ⟨[], [], [], first.2⟩)

/-- `build_partitions` and `build_partition` (`builder.rs` 438-582), then `merge_partitions`.  The order in which the partitions are built has no
effect. -/
def Cfg.buildWith {V C : Type} (c : Cfg V C) (frags : List (Frag V)) (olds : List (IndexFile C)) (reader : Reader V) : Option (IndexFile C) :=
  match (List.range c.nparts).mapM (takePartition frags olds reader) with
  | none => none
  | some parts => mergePartitions (parts.map (fun p => (p.1.map (fun r => (r.1, c.quant r.2)), p.2)))

/-- The rows of the scan in `shuffle_dataset` and `merge_indices`: those with a vector (`builder.rs` 340-366, `append.rs` 113-122). -/
def vectorsOf {V : Type} (frags : List (Frag V)) : List (Addr × V) :=
  (frags.flatMap Frag.scan).filterMap (fun r => r.2.map (fun v => (r.1, v)))

/-- `IvfIndexBuilder::build` (`builder.rs` 187-212) after `shuffle_data(data)`: no reader is there if there was no data, so the whole dataset
is shuffled. -/
def Cfg.build {V C : Type} (c : Cfg V C) (frags : List (Frag V)) (olds : List (IndexFile C)) (data : Option (List (Addr × V))) :
    Option (IndexFile C) :=
  match c.shuffleData (data.getD (vectorsOf frags)) with
  | none => none
  | some reader => c.buildWith frags olds reader

/-- `VectorStore::remap` on one partition (`vector/storage.rs` 76-112): two columns are made for the schema of the storage. -/
def remapRows {C : Type} (mapping : Addr → Option (Option Addr)) (rows : List (Addr × C)) : List (Addr × C) :=
  rows.filterMap (fun r =>
    match mapping r.1 with
    | some (some a) => some (a, r.2)
    | some none => none
    | none => some r)

/-- `IvfIndexBuilder::remap` (`builder.rs` 214-258). -/
def IndexFile.remap {C : Type} (x : IndexFile C) (mapping : Addr → Option (Option Addr)) : Option (IndexFile C) :=
  if x.partCol then none
  else
    match (List.range x.nparts).mapM x.load with
    | none => none
    | some parts => mergePartitions (parts.map (fun rows => (remapRows mapping rows, false)))

end Verif.Vec
