import Verif.Pq.Part
/-!
# Model of scalar quantization and of partitions of scalar-quantized indices

`ScalarQuantizer` (`rust/lance-index/src/vector/sq.rs`) keeps every number of a vector as a byte: where it lies between the least and the
largest number of a sample.  `ScalarQuantizationStorage` (`rust/lance-index/src/vector/sq/storage.rs`) is a partition of an index.
Simplified throughout: the numbers of vectors are integers (in any unit) and arithmetic is exact, where the code has floats.
Distances are in units of 1/255².  Errors and panics are `none`.
-/
namespace Verif.Sq
open Verif.Pq (slice takeVectors)

/-- `DistanceType` (`rust/lance-linalg/src/distance.rs`); Hamming panics (`storage.rs` 372, 428). -/
inductive Metric where
  | l2
  | dot
  | cosine
  deriving DecidableEq, Repr

/-- `Range<f64>` of `ScalarQuantizer::bounds` (`sq.rs` 42). -/
structure Bounds where
  start : Int
  stop : Int
  deriving DecidableEq, Repr

/-- The step of the fold of `update_bounds` (`sq.rs` 88-90). -/
def Bounds.add (b : Bounds) (v : Int) : Bounds := ⟨min b.start v, max b.stop v⟩

/-- `ScalarQuantizer::build` and `update_bounds` (`sq.rs` 71-93, 155-185).  Simplified: `none` if there are no numbers, where the code has the bounds
`f64::MAX..f64::MIN`. -/
def train (sample : List (List Int)) : Option Bounds :=
  match sample.flatten with
  | [] => none
  | v :: vs => some (vs.foldl Bounds.add ⟨v, v⟩)

/-- `scale_to_u8` (`sq.rs` 235-251) of one number: `round` is to the nearest integer and away from zero for halves; the quotient of zeros is NaN,
for which `to_u8` is `None` and `unwrap` panics. -/
def scale (b : Bounds) (v : Int) : Option Nat :=
  if v < b.start then some 0
  else if v > b.stop then some 255
  else if b.stop - b.start = 0 then none
  else some ((2 * ((v - b.start) * 255) + (b.stop - b.start)) / (2 * (b.stop - b.start))).toNat

/-- `scale_to_u8` (`sq.rs` 235-251) -/
def scaleAll (b : Bounds) : List Int → Option (List Nat)
  | [] => some []
  | v :: vs =>
    match scale b v, scaleAll b vs with
    | some c, some cs => some (c :: cs)
    | _, _ => none

/-- `l2_distance_uint_scalar` (`rust/lance-linalg/src/distance/l2.rs` 52-57): a sum of `u32`.  It wraps in the release build. -/
def l2Codes (x y : List Nat) : Nat := (List.zipWith (fun a b => (max a b - min a b) ^ 2) x y).sum % 2 ^ 32

/-- `Dot for u8` (`rust/lance-linalg/src/distance/dot.rs` 204-213): a sum of `u32`. -/
def dotCodes (x y : List Nat) : Nat := (List.zipWith (· * ·) x y).sum % 2 ^ 32

/-- The distance of two codes (`storage.rs` 420-427): `dot_distance` is one minus the product. -/
def Metric.codes : Metric → List Nat → List Nat → Int
  | .l2, x, y => l2Codes x y
  | .cosine, x, y => l2Codes x y
  | .dot, x, y => 1 - (dotCodes x y : Int)

/-- `inverse_scalar_dist` (`sq.rs` 253-262), in units of 1/255². -/
def inverse (b : Bounds) (d : Int) : Int := d * (b.stop - b.start) ^ 2

/-- `ScalarQuantizationStorage` (`storage.rs` 151-160) of one chunk, as it is built or loaded (`storage.rs` 251-300): `append_batch` is not called.  The only indices with it are `IVF_HNSW_SQ`. -/
structure Storage where
  bounds : Bounds
  metric : Metric
  dim : Nat
  rowIds : List Nat
  codes : List Nat
  deriving DecidableEq, Repr

/-- What is quantized of a vector: `IvfTransformer::with_sq` (`rust/lance-index/src/vector/ivf.rs` 205-242) and
`search` for a query (`rust/lance/src/index/vector/ivf/v2.rs` 371-376).  `norm` is `normalize_arrow`. -/
def prepare (norm : List Int → List Int) (m : Metric) (v : List Int) : List Int := if m = .cosine then norm v else v

/-- `StorageBuilder::build` (`rust/lance-index/src/vector/storage.rs` 164-187) of a batch of row ids and vectors. -/
def Storage.build (b : Bounds) (m : Metric) (dim : Nat) (rows : List (Nat × List Int)) : Option Storage :=
  match scaleAll b (rows.map Prod.snd).flatten with
  | none => none
  | some codes => if codes.length = dim * rows.length then some ⟨b, m, dim, rows.map Prod.fst, codes⟩ else none

/-- A partition of new rows: `shuffle_data` and `build_partition` (`rust/lance/src/index/vector/builder.rs` 378-445, 536-581). -/
def buildPart (norm : List Int → List Int) (b : Bounds) (m : Metric) (dim : Nat) (rows : List (Nat × List Int)) : Option Storage :=
  Storage.build b m dim (rows.map (fun r => (r.1, prepare norm m r.2)))

/-- A new index of one partition: `load_or_build_quantizer` (`builder.rs` 294-347) trains on a sample, then the rows are quantized. -/
def create (norm : List Int → List Int) (m : Metric) (dim : Nat) (sample : List (List Int)) (rows : List (Nat × List Int)) : Option Storage :=
  match train (sample.map (prepare norm m)) with
  | none => none
  | some b => buildPart norm b m dim rows

/-- `sq_code_slice` (`storage.rs` 139-143) -/
def Storage.codeAt (s : Storage) (id : Nat) : Option (List Nat) := slice s.codes (id * s.dim) ((id + 1) * s.dim)

/-- `SQDistCalculator::distance` (`storage.rs` 417-430) for a query whose code is `q`. -/
def Storage.distanceCode (s : Storage) (q : List Nat) (id : Nat) : Option Int := (s.codeAt id).map (fun c => inverse s.bounds (s.metric.codes c q))

/-- `dist_calculator(query)` and then `distance(id)` (`storage.rs` 352-354, 393-430), with the query as it is given by the user. -/
def Storage.distance (norm : List Int → List Int) (s : Storage) (query : List Int) (id : Nat) : Option Int :=
  match scaleAll s.bounds (prepare norm s.metric query) with
  | none => none
  | some q => s.distanceCode q id

/-- The rows of existing partitions (`builder.rs` 591-611): their vectors are taken from the dataset, as they are there. -/
def oldRows (dataset : Nat → Option (List Int)) : List Storage → Option (List (Nat × List Int))
  | [] => some []
  | s :: ss =>
    match takeVectors dataset s.rowIds, oldRows dataset ss with
    | some x, some r => some (x ++ r)
    | _, _ => none

/-- A partition of an index that is merged of existing ones and new rows (`take_partition_batches` and `build_partition`, `builder.rs` 536-622). -/
def mergePart (norm : List Int → List Int) (b : Bounds) (m : Metric) (dim : Nat) (dataset : Nat → Option (List Int)) (olds : List Storage)
    (rows : List (Nat × List Int)) : Option Storage :=
  match oldRows dataset olds with
  | none => none
  | some old => Storage.build b m dim (old ++ rows.map (fun r => (r.1, prepare norm m r.2)))

end Verif.Sq
