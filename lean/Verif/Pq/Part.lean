import Verif.Pq.Model
/-!
# Model of partitions of product-quantized indices: loading, remapping, merging, searching

`PQIndex` is the partition of an index of the first format (`rust/lance/src/index/vector/pq.rs`), `ProductQuantizationStorage` with `FlatIndex` that of
an index of the third format (`rust/lance-index/src/vector/pq/storage.rs`, `storage.rs`, `flat/index.rs`,
`rust/lance/src/index/vector/builder.rs`).  Errors and panics are `none`.
-/
namespace Verif.Pq

/-- `HashMap<u64, Option<u64>>`: the new row id of a row, `some none` for a row that is gone and `none` for a row that keeps its id. -/
abbrev Mapping := Nat → Option (Option Nat)

/-- The new id of a row, if it is still there (`rust/lance/src/index/vector/pq.rs` 373-376, `rust/lance-index/src/vector/storage.rs` 84-94). -/
def Mapping.apply (m : Mapping) (id : Nat) : Option Nat := (m id).getD (some id)

/-- `FixedSizeListArray::try_new_from_values` and its rows: a rest is an error. -/
def fsl {α : Type} (l : List α) (k : Nat) : Option (List (List α)) :=
  if k = 0 then none else if l.length % k = 0 then some (chunksExact k l) else none

/-- `get` of a list of positions; out of range is a panic. -/
def pick {α : Type} (l : List α) : List Nat → Option (List α)
  | [] => some []
  | i :: is =>
    match l[i]?, pick l is with
    | some x, some r => some (x :: r)
    | _, _ => none

/-! ## The first format -/

/-- `PQIndex` with a loaded page (`rust/lance/src/index/vector/pq.rs` 57-71). -/
structure Page where
  q : Quantizer
  code : List Nat
  rowIds : List Nat
  deriving DecidableEq, Repr

/-- `PQIndex::load` (`pq.rs` 294-332).  Simplified: the codes and the row ids are given as arrays and not as bytes of a file; the code has
one byte for every sub-vector (8 bits). -/
def Page.load (q : Quantizer) (codes rowIds : List Nat) : Option Page :=
  (transpose codes rowIds.length q.subs).map (fun c => ⟨q, c, rowIds⟩)

/-- A partition of new rows is written by `write_pq_partitions` (`rust/lance/src/index/vector/ivf/io.rs` 145-248) and loaded. -/
def Page.build (q : Quantizer) (rows : List (Nat × List Int)) : Option Page :=
  match quantize q (rows.map Prod.snd) with
  | none => none
  | some code => Page.load q code (rows.map Prod.fst)

/-- `PQIndex::to_batch_stream` with vectors (`pq.rs` 334-369): the row ids and the codes. -/
def Page.toBatch (p : Page) : Option (List (Nat × List Nat)) :=
  match transpose p.code p.q.subs p.rowIds.length with
  | none => none
  | some l =>
    match fsl l p.q.subs with
    | none => none
    | some rows => if rows.length = p.rowIds.length then some (p.rowIds.zip rows) else none

/-- `PQIndex::get_pq_codes` (`pq.rs` 141-149) -/
def Page.codeAt (p : Page) (i : Nat) : List Nat := strided p.code i p.rowIds.length

/-- The rows that are kept by `remap`, from the `i`-th on (`pq.rs` 380-397). -/
def Page.remapFrom (p : Page) (m : Mapping) : Nat → List Nat → List (Nat × List Nat)
  | _, [] => []
  | i, id :: ids =>
    match m.apply id with
    | none => p.remapFrom m (i + 1) ids
    | some id' => (id', p.codeAt i) :: p.remapFrom m (i + 1) ids

/-- `PQIndex::remap` (`pq.rs` 379-411) -/
def Page.remap (p : Page) (m : Mapping) : Option Page :=
  let rows := p.remapFrom m 0 p.rowIds
  (transpose (rows.map Prod.snd).flatten rows.length p.q.subs).map (fun c => ⟨p.q, c, rows.map Prod.fst⟩)

/-- What compaction does with a partition (`rust/lance/src/index/vector/ivf.rs` 1318-1351): `load_and_remap`, `write`, and then it is loaded. -/
def Page.rewrite (p : Page) (m : Mapping) : Option Page :=
  match p.remap m with
  | none => none
  | some p =>
    match transpose p.code p.q.subs p.rowIds.length with
    | none => none
    | some l => Page.load p.q l p.rowIds

/-- The codes of existing partitions in `write_pq_partitions` (`ivf/io.rs` 189-222). -/
def oldCodes : List Page → Option (List Nat)
  | [] => some []
  | p :: ps =>
    if p.q.subs = 0 then none
    else
      match transpose p.code p.q.subs (p.code.length / p.q.subs), oldCodes ps with
      | some l, some r => some (l ++ r)
      | _, _ => none

/-- Partitions of several indices and new rows are merged by `write_pq_partitions` (`ivf/io.rs` 180-246) and loaded.
Simplified: the new rows are of one stream. -/
def Page.merge (q : Quantizer) (olds : List Page) (rows : List (Nat × List Int)) : Option Page :=
  match oldCodes olds, quantize q (rows.map Prod.snd) with
  | some l, some r => Page.load q (l ++ r) (olds.flatMap (·.rowIds) ++ rows.map Prod.fst)
  | _, _ => none

/-- The positions of the selected row ids: `filter_row_ids` (`rust/lance/src/index/prefilter.rs` 278-280, `selected_indices` of `mask.rs`). -/
def selectedFrom (sel : Nat → Bool) : Nat → List Nat → List Nat
  | _, [] => []
  | i, id :: ids => if sel id then i :: selectedFrom sel (i + 1) ids else selectedFrom sel (i + 1) ids

/-- `flat_map` over chunks that may panic. -/
def pickAll {α : Type} (is : List Nat) : List (List α) → Option (List α)
  | [] => some []
  | c :: cs =>
    match pick c is, pickAll is cs with
    | some x, some r => some (x ++ r)
    | _, _ => none

/-- `PQIndex::filter_arrays` (`pq.rs` 108-139) -/
def Page.filterArrays (p : Page) (sel : Nat → Bool) : Option (List Nat × List Nat) :=
  if p.rowIds = [] then some (p.code, p.rowIds)
  else
    let keep := selectedFrom sel 0 p.rowIds
    match pick p.rowIds keep, pickAll keep (chunksExact p.rowIds.length p.code) with
    | some ids, some code => some (code, ids)
    | _, _ => none

/-- The codes and row ids that are searched (`pq.rs` 220-224). -/
def Page.arrays (p : Page) : Option (Nat → Bool) → Option (List Nat × List Nat)
  | none => some (p.code, p.rowIds)
  | some f => p.filterArrays f

/-- The loop over rows in order of their distances if there is a bound (`pq.rs` 241-261). -/
def collect (lo hi : Option Int) (limit : Nat) : List (Int × Nat) → List (Int × Nat) → List (Int × Nat)
  | [], acc => acc
  | x :: xs, acc =>
    if lo.any (fun l => decide (x.1 < l)) then collect lo hi limit xs acc
    else if hi.any (fun h => decide (h ≤ x.1)) then acc
    else if limit ≤ (acc ++ [x]).length then acc ++ [x]
    else collect lo hi limit xs (acc ++ [x])

/-- `PQIndex::search` (`pq.rs` 204-270): pairs of distance and row id.  `order` is `sort_to_indices`, of which it is only known that it sorts;
`sel` is the prefilter, `none` if it is empty.  Distances and bounds are in units of 1/255. -/
def Page.search (a : Arch) (p : Page) (order : List Int → List Nat) (query : List Int) (sel : Option (Nat → Bool)) (limit : Nat) (lo hi : Option Int) :
    Option (List (Int × Nat)) :=
  match p.arrays sel with
  | none => none
  | some (code, ids) =>
    match table p.q.metric p.q.bits p.q.codebook p.q.subs query with
    | none => none
    | some t =>
      match computeDistances a t p.q.bits p.q.subs code with
      | none => none
      | some ds =>
        match pick ds (order ds), pick ids (order ds) with
        | some ds', some ids' => if lo = none ∧ hi = none then some ((ds'.zip ids').take limit) else some (collect lo hi limit (ds'.zip ids') [])
        | _, _ => none

/-! ## The third format -/

/-- The rows that are kept: their positions and new ids, from the `i`-th on (`rust/lance-index/src/vector/storage.rs` 79-96). -/
def keptFrom (m : Mapping) : Nat → List Nat → List (Nat × Nat)
  | _, [] => []
  | i, id :: ids =>
    match m.apply id with
    | none => keptFrom m (i + 1) ids
    | some id' => (i, id') :: keptFrom m (i + 1) ids

/-- `VectorStore::remap` (`storage.rs` 76-113) of a `ProductQuantizationStorage` that was loaded, so that the metadata say that the codes are transposed:
`take` of the fixed size list array of the codes.  The codes of the array are transposed, so that its rows are not the codes of the rows. -/
def Storage.remap (s : Storage) (m : Mapping) : Option Storage :=
  match fsl s.code s.q.codeLen with
  | none => none
  | some rows =>
    let kept := keptFrom m 0 s.rowIds
    match pick rows (kept.map Prod.fst) with
    | none => none
    | some codes => Storage.new s.q codes.flatten (kept.map Prod.snd) true

/-- `FlatIndex::search` (`flat/index.rs` 76-131): a row with its distance. -/
structure Node where
  id : Nat
  dist : Int
  deriving DecidableEq, Repr

/-- The distances of selected rows, from the `i`-th on (`flat/index.rs` 108-113). -/
def Storage.selected (s : Storage) (query : List Int) (sel : Nat → Bool) : Nat → List Nat → Option (List Node)
  | _, [] => some []
  | i, id :: ids =>
    if sel id then
      match s.distance query i, s.selected query sel (i + 1) ids with
      | some d, some r => some (⟨i, d⟩ :: r)
      | _, _ => none
    else s.selected query sel (i + 1) ids

/-- The rows with their distances, selected by the prefilter if there is one (`flat/index.rs` 86-93, 106-113). -/
def Storage.nodes (a : Arch) (s : Storage) (query : List Int) : Option (Nat → Bool) → Option (List Node)
  | none => (s.distanceAll a query).map (fun ds => (ds.zip (List.range s.rowIds.length)).map (fun p => ⟨p.2, p.1⟩))
  | some sel => s.selected query sel 0 s.rowIds

/-- `lower_bound <= r.dist.0 && r.dist.0 < upper_bound` (`flat/index.rs` 95-102, 114-121).
Simplified: a bound that is not given is no bound, in the code it is the least or largest finite `f32`. -/
def inBounds (lo hi : Option Int) (d : Int) : Bool := lo.all (fun l => decide (l ≤ d)) && hi.all (fun h => decide (d < h))

/-- `FlatIndex::search` (`flat/index.rs` 76-131): pairs of distance and row id.  `sort` is `sort_unstable`. -/
def Storage.search (a : Arch) (s : Storage) (sort : List Node → List Node) (query : List Int) (sel : Option (Nat → Bool)) (k : Nat) (lo hi : Option Int) :
    Option (List (Int × Nat)) :=
  match s.nodes a query sel with
  | none => none
  | some ns =>
    let ns := (sort (ns.filter (fun n => inBounds lo hi n.dist))).take k
    (pick s.rowIds (ns.map Node.id)).map (fun ids => (ns.map Node.dist).zip ids)

/-! ## Partitions of an IVF index of the third format -/

/-- `PQBuildParams::use_residual` (`rust/lance-index/src/vector/pq/builder.rs` 66-68): for L2 (and cosine). -/
def Metric.residual : Metric → Bool
  | .l2 => true
  | .dot => false

/-- `ResidualTransform` of one vector (`residual.rs` 79-88) and `sub` of the query (`rust/lance/src/index/vector/ivf/v2.rs` 297). -/
def minus (v c : List Int) : List Int := List.zipWith (· - ·) v c

/-- What is quantized of a vector of the partition with the centroid `c`: `IvfTransformer::with_pq` (`rust/lance-index/src/vector/ivf.rs` 150-203),
and `preprocess_query` for a query (`ivf/v2.rs` 287-304). -/
def prepare (m : Metric) (c v : List Int) : List Int := if m.residual then minus v c else v

/-- A partition of new rows: `shuffle_data` and `build_partition` (`rust/lance/src/index/vector/builder.rs` 378-445, 536-581). -/
def buildPart (q : Quantizer) (c : List Int) (rows : List (Nat × List Int)) : Option Storage :=
  Storage.build q (rows.map (fun r => (r.1, prepare q.metric c r.2)))

/-- `take_vectors` (`builder.rs` 774-793): the vectors of the rows in the dataset that are still there, to which the column of all row ids is added;
a different number of rows is an error.  Simplified: all rows in one chunk. -/
def takeVectors (dataset : Nat → Option (List Int)) (ids : List Nat) : Option (List (Nat × List Int)) :=
  let vs := ids.filterMap dataset
  if vs.length = ids.length then some (ids.zip vs) else none

/-- The rows of existing partitions (`builder.rs` 591-611). -/
def oldRows (dataset : Nat → Option (List Int)) : List Storage → Option (List (Nat × List Int))
  | [] => some []
  | s :: ss =>
    match takeVectors dataset s.rowIds, oldRows dataset ss with
    | some x, some r => some (x ++ r)
    | _, _ => none

/-- A partition of an index that is merged of existing ones and new rows (`take_partition_batches` and `build_partition`, `builder.rs` 536-622). -/
def mergePart (q : Quantizer) (dataset : Nat → Option (List Int)) (c : List Int) (olds : List Storage) (rows : List (Nat × List Int)) : Option Storage :=
  match oldRows dataset olds with
  | none => none
  | some old => Storage.build q (old ++ rows.map (fun r => (r.1, prepare q.metric c r.2)))

end Verif.Pq
