/-!
# Product quantization

`rust/lance-index/src/vector/pq.rs`, `pq/utils.rs`, `pq/distance.rs`, `pq/storage.rs`, `rust/lance-linalg/src/kmeans.rs` 741-760 and
`rust/lance-linalg/src/kernels.rs` 79-89.

A vector of `dim` numbers is cut into `M` sub-vectors; of every sub-vector the number of the nearest centroid is kept: 8 bits, or 4 bits and
two to a byte.  A search compares the query with all centroids once (the distance table) and adds up the entries that the codes select.

Simplified everywhere: numbers are integers with exact arithmetic, not floats; there are no infinities and no NaN.  The distances that the
4-bit path computes have a division by 255, so that all distances of searches are kept in units of 1/255 (`unit`).
A panic is `none`; so are the errors.
-/
namespace Verif.Pq

/-- The metrics of a quantizer.  Cosine is L2 of normalized vectors by the time these functions run (`storage.rs` 199-202). -/
inductive Metric where
  | l2
  | dot
  deriving DecidableEq, Repr

/-- Squared L2 distance: `l2_scalar` (`rust/lance-linalg/src/distance/l2.rs` 65-110).
Simplified: the lanes of the kernels change the order of the sum only. -/
def l2 (x y : List Int) : Int := (List.zipWith (fun a b => (a - b) * (a - b)) x y).sum

/-- Dot product: `dot_scalar` (`rust/lance-linalg/src/distance/dot.rs` 24-67). -/
def dotProduct (x y : List Int) : Int := (List.zipWith (· * ·) x y).sum

/-- `dot_distance` (`dot.rs` 71-73). -/
def dotDistance (x y : List Int) : Int := 1 - dotProduct x y

/-- The distance of a metric. -/
def Metric.dist : Metric → List Int → List Int → Int
  | .l2 => Verif.Pq.l2
  | .dot => dotDistance

/-- `chunks_exact(k)`: as many pieces of `k` items as there are, the rest is left out.  The callers check that `k` is not zero, for which Rust panics. -/
def chunksExact {α : Type} (k : Nat) (l : List α) : List (List α) := (List.range (l.length / k)).map (fun i => (l.drop (i * k)).take k)

/-- `&l[a..b]` -/
def slice {α : Type} (l : List α) (a b : Nat) : Option (List α) := if a ≤ b ∧ b ≤ l.length then some ((l.drop a).take (b - a)) else none

/-- `l2_distance_batch` and `dot_distance_batch` (`l2.rs` 237-246, `dot.rs` 216-224): the distance to every vector of the flat array. -/
def distanceBatch (m : Metric) (from_ to : List Int) : List Int := (chunksExact from_.length to).map (m.dist from_)

/-- `argmin_value_float` (`kernels.rs` 79-89) from the index `i` on, with the least value so far.  Simplified: every value is less than infinity. -/
def argminFrom : Nat → Option (Nat × Int) → List Int → Option (Nat × Int)
  | _, best, [] => best
  | i, none, v :: vs => argminFrom (i + 1) (some (i, v)) vs
  | i, some (j, b), v :: vs => if v < b then argminFrom (i + 1) (some (i, v)) vs else argminFrom (i + 1) (some (j, b)) vs

/-- `argmin_value_float(..).map(|c| c.0)` -/
def argmin (vs : List Int) : Option Nat := (argminFrom 0 none vs).map Prod.fst

/-- `compute_partition` (`kmeans.rs` 741-760) -/
def computePartition (m : Metric) (centroids v : List Int) : Option Nat := argmin (distanceBatch m v centroids)

/-- `ProductQuantizer` (`pq.rs` 37-48).  The codebook is flat. -/
structure Quantizer where
  bits : Nat
  subs : Nat
  dim : Nat
  codebook : List Int
  metric : Metric
  deriving DecidableEq, Repr

/-- `get_sub_vector_centroids` (`utils.rs` 53-73) -/
def subCentroids (bits : Nat) (codebook : List Int) (dim subs i : Nat) : Option (List Int) :=
  if subs = 0 then none
  else slice codebook (i * 2 ^ bits * (dim / subs)) ((i + 1) * 2 ^ bits * (dim / subs))

/-- The codes of the sub-vectors from the `i`-th on (`pq.rs` 149-162): `compute_partition(..).unwrap() as u8`. -/
def codesFrom (q : Quantizer) : Nat → List (List Int) → Option (List Nat)
  | _, [] => some []
  | i, v :: vs =>
    match subCentroids q.bits q.codebook q.dim q.subs i with
    | none => none
    | some c =>
      match computePartition q.metric c v with
      | none => none
      | some p =>
        match codesFrom q (i + 1) vs with
        | none => none
        | some cs => some (p % 256 :: cs)

/-- Two 4-bit codes in a byte (`pq.rs` 163-168): `(v[1] << 4) | v[0]` on `u8`. -/
def pack : List Nat → List Nat
  | a :: b :: r => (((b <<< 4) % 256) ||| a) :: pack r
  | _ => []

/-- The bytes of one vector (`pq.rs` 148-172). -/
def codeOf (q : Quantizer) (v : List Int) : Option (List Nat) :=
  if q.dim / q.subs = 0 then none
  else (codesFrom q 0 (chunksExact (q.dim / q.subs) v)).map (fun cs => if q.bits = 4 then pack cs else cs)

/-- The bytes of all vectors, one after the other. -/
def codesOf (q : Quantizer) : List (List Int) → Option (List Nat)
  | [] => some []
  | v :: vs =>
    match codeOf q v, codesOf q vs with
    | some c, some cs => some (c ++ cs)
    | _, _ => none

/-- `ProductQuantizer::transform` and `transform_impl` (`pq.rs` 98-187) of a fixed size list array: the flat array of all numbers is cut by `dim`. -/
def quantize (q : Quantizer) (rows : List (List Int)) : Option (List Nat) :=
  if q.bits = 4 ∨ q.bits = 8 then
    if q.bits = 4 ∧ q.subs % 2 ≠ 0 then none
    else if q.subs = 0 ∨ q.dim = 0 then none
    else codesOf q (chunksExact q.dim rows.flatten)
  else none

/-- The inner loop of `transpose` (`storage.rs` 371-373): the codes of the vector `v`, from the sub-vector `s` on. -/
def transposeRow {α : Type} (n v : Nat) : Nat → List α → List α → Option (List α)
  | _, [], out => some out
  | s, c :: cs, out => if s * n + v < out.length then transposeRow n v (s + 1) cs (out.set (s * n + v) c) else none

/-- The outer loop of `transpose` (`storage.rs` 370-374). -/
def transposeRows {α : Type} (n : Nat) : Nat → List (List α) → List α → Option (List α)
  | _, [], out => some out
  | v, r :: rs, out =>
    match transposeRow n v 0 r out with
    | none => none
    | some out => transposeRows n (v + 1) rs out

/-- `transpose` (`storage.rs` 357-377) -/
def transpose {α : Type} [Inhabited α] (l : List α) (n cols : Nat) : Option (List α) :=
  if l = [] then some l
  else if cols = 0 then none
  else transposeRows n 0 (chunksExact cols l) (List.replicate l.length default)

/-- `ProductQuantizationStorage` (`storage.rs` 109-123): the row ids and the transposed codes. -/
structure Storage where
  q : Quantizer
  code : List Nat
  rowIds : List Nat
  deriving DecidableEq, Repr

/-- The bytes of the code of one vector (`storage.rs` 173-177). -/
def Quantizer.codeLen (q : Quantizer) : Nat := if q.bits = 4 then q.subs / 2 else q.subs

/-- `ProductQuantizationStorage::new` (`storage.rs` 147-211) -/
def Storage.new (q : Quantizer) (code rowIds : List Nat) (transposed : Bool) : Option Storage :=
  if transposed then some ⟨q, code, rowIds⟩
  else (transpose code rowIds.length q.codeLen).map (fun c => ⟨q, c, rowIds⟩)

/-- `ProductQuantizationStorage::build` (`storage.rs` 227-250): rows with their row ids. -/
def Storage.build (q : Quantizer) (rows : List (Nat × List Int)) : Option Storage :=
  match quantize q (rows.map Prod.snd) with
  | none => none
  | some code => Storage.new q code (rows.map Prod.fst) false

/-- The distance table from the `i`-th sub-vector of the query on. -/
def tableFrom (m : Metric) (bits : Nat) (codebook : List Int) (dim subs : Nat) : Nat → List (List Int) → Option (List Int)
  | _, [] => some []
  | i, v :: vs =>
    match subCentroids bits codebook dim subs i, tableFrom m bits codebook dim subs (i + 1) vs with
    | some c, some t => some (distanceBatch m v c ++ t)
    | _, _ => none

/-- `build_distance_table_l2` and `build_distance_table_dot` (`distance.rs` 17-84).  The dimension is the length of the query. -/
def table (m : Metric) (bits : Nat) (codebook : List Int) (subs : Nat) (query : List Int) : Option (List Int) :=
  if bits = 4 ∨ bits = 8 then
    if subs = 0 ∨ query.length / subs = 0 then none
    else tableFrom m bits codebook query.length subs 0 (chunksExact (query.length / subs) query)
  else none

/-- `*sum += dist_table[centroid_idx]` for all vectors (`distance.rs` 125-131). -/
def addChunk (t : List Int) : List Nat → List Int → Option (List Int)
  | c :: cs, d :: ds =>
    match t[c]?, addChunk t cs ds with
    | some x, some r => some ((d + x) :: r)
    | _, _ => none
  | _, ds => some ds

/-- The loop of `compute_pq_distance` over sub-vectors (`distance.rs` 121-132). -/
def sumChunks (t : List Int) : Nat → List (List Nat) → List Int → Option (List Int)
  | _, [], ds => some ds
  | s, c :: cs, ds =>
    match slice t (s * 256) ((s + 1) * 256) with
    | none => none
    | some ts =>
      match addChunk ts c ds with
      | none => none
      | some ds => sumChunks t (s + 1) cs ds

/-- `a - b` and so on in distances are in units of 1/255 of this. -/
def unit : Int := 255

/-- `compute_pq_distance` for 8 bits (`distance.rs` 114-134). -/
def distances8 (t : List Int) (subs : Nat) (code : List Nat) : Option (List Int) :=
  if subs = 0 ∨ code.length / subs = 0 then none
  else sumChunks t 0 (chunksExact (code.length / subs) code) (List.replicate (code.length / subs) 0)

/-- The least item, `fold(f32::INFINITY, f32::min)`. -/
def minOf : List Int → Option Int
  | [] => none
  | x :: xs => some (xs.foldl min x)

/-- The largest item, `fold(f32::NEG_INFINITY, f32::max)`. -/
def maxOf : List Int → Option Int
  | [] => none
  | x :: xs => some (xs.foldl max x)

/-- `chunks(k)`: like `chunks_exact`, with the rest. -/
def chunks {α : Type} (k : Nat) (l : List α) : List (List α) := (List.range ((l.length + k - 1) / k)).map (fun i => (l.drop (i * k)).take k)

/-- The sums of the largest items of adjacent chunks (`distance.rs` 215-221). -/
def pairMaxes : List (List Int) → List Int
  | a :: b :: r => ((maxOf a).getD 0 + (maxOf b).getD 0) :: pairMaxes (b :: r)
  | _ => []

/-- `(a / b).ceil() as u8`: a cast of a float to `u8` saturates and makes 0 of NaN. -/
def ceilDivU8 (a b : Int) : Nat :=
  let c := if 0 < b then -((-a) / b) else if b < 0 then -(a / (-b)) else if 0 < a then 255 else 0
  min c.toNat 255

/-- `quantize_distance_table` (`distance.rs` 210-230).  `none` for fewer than two sub-vectors, where the largest sum is minus infinity. -/
def quantizeTable (t : List Int) : Option (Int × Int × List Nat) :=
  match minOf t, maxOf (pairMaxes (chunks 16 t)) with
  | some lo, some hi => some (lo, hi, t.map (fun d => ceilDivU8 ((d - lo) * 255) (hi - lo)))
  | _, _ => none

/-- What adding two `u8x16` does with a sum over 255 (`rust/lance-linalg/src/simd/u8.rs` 279-301): it wraps on x86-64 and saturates elsewhere. -/
inductive Arch where
  | x86
  | other
  deriving DecidableEq, Repr

/-- One lane of the sum of two `u8x16`. -/
def Arch.add : Arch → Nat → Nat → Nat
  | .x86, a, b => (a + b) % 256
  | .other, a, b => min (a + b) 255

/-- The two entries that a byte of codes selects in the table (`distance.rs` 163-171, 185-188): `c & 0xF` and `c >> 4`.
`none` where an index is out of range. -/
def entries {α : Type} (t : List α) (s c : Nat) : Option (α × α) :=
  match t[s * 2 * 16 + c % 16]?, t[(s * 2 + 1) * 16 + c / 16]? with
  | some x, some y => some (x, y)
  | _, _ => none

/-- `*sum += d as f32` for a block of 16 vectors (`distance.rs` 173-180) and for the rest (`distance.rs` 184-190), told apart by `add`. -/
def addBytes (add : Nat → Nat → Nat) (t : List Nat) (s : Nat) : List Nat → List Int → Option (List Int)
  | c :: cs, d :: ds =>
    match entries t s c, addBytes add t s cs ds with
    | some (x, y), some r => some ((d + (add x y : Nat)) :: r)
    | _, _ => none
  | _, ds => some ds

/-- One pair of sub-vectors (`distance.rs` 144-192): full blocks of 16 vectors with `u8` sums, the rest with exact sums.
The two loads of a row of the table need it to be there. -/
def addPair (a : Arch) (t : List Nat) (s : Nat) (chunk : List Nat) (ds : List Int) : Option (List Int) :=
  if t.length < (s * 2 + 2) * 16 then none
  else
    let full := ds.length / 16 * 16
    match addBytes a.add t s (chunk.take full) (ds.take full), addBytes (· + ·) t s (chunk.drop full) (ds.drop full) with
    | some x, some y => some (x ++ y)
    | _, _ => none

/-- The loop over pairs of sub-vectors. -/
def sumPairs (a : Arch) (t : List Nat) : Nat → List (List Nat) → List Int → Option (List Int)
  | _, [], ds => some ds
  | s, c :: cs, ds =>
    match addPair a t s c ds with
    | none => none
    | some ds => sumPairs a t (s + 1) cs ds

/-- `compute_pq_distance_4bit` (`distance.rs` 137-204), in units of 1/255.  `num_vectors - 16 + 1` is the end of the loop over blocks; it wraps
for fewer than 16 vectors, and then the slice of the first block is out of range, except for 15, where the end is zero.
Simplified: this is the release build, the debug build panics for 15 as well. -/
def distances4 (a : Arch) (t : List Int) (subs : Nat) (code : List Nat) : Option (List Int) :=
  match quantizeTable t with
  | none => none
  | some (lo, hi, qt) =>
    if subs = 0 ∨ code.length * 2 / subs = 0 then none
    else
      let n := code.length * 2 / subs
      if n < 15 then none
      else (sumPairs a qt 0 (chunksExact n code) (List.replicate n 0)).map (fun ds => ds.map (fun d => d * (hi - lo) + unit * lo))

/-- `compute_pq_distance` (`distance.rs` 101-135), in units of 1/255. -/
def computeDistances (a : Arch) (t : List Int) (bits subs : Nat) (code : List Nat) : Option (List Int) :=
  if code = [] then some []
  else if bits = 4 then distances4 a t subs code
  else (distances8 t subs code).map (fun ds => ds.map (unit * ·))

/-- `skip(id).step_by(n)` -/
def strided {α : Type} (l : List α) (id n : Nat) : List α := (List.range ((l.length - id + n - 1) / n)).filterMap (fun i => l[id + i * n]?)

/-- `PQDistCalculator::get_pq_code` (`storage.rs` 584-598).  `step_by(0)` panics. -/
def Storage.codeAt (s : Storage) (id : Nat) : Option (List Nat) :=
  if s.q.codeLen = 0 ∨ s.code.length / s.q.codeLen = 0 then none else some (strided s.code id (s.code.length / s.q.codeLen))

/-- The sum of the entries of the table for the codes from the `i`-th byte on (`storage.rs` 606-623). -/
def sumEntries (bits : Nat) (t : List Int) : Nat → List Nat → Option Int
  | _, [] => some 0
  | i, c :: cs =>
    match (if bits = 4 then (entries t i c).map (fun e => e.1 + e.2) else t[i * 2 ^ bits + c]?), sumEntries bits t (i + 1) cs with
    | some x, some r => some (x + r)
    | _, _ => none

/-- `dist_calculator(query)` and then `distance(id)` (`storage.rs` 500-537, 602-624), in units of 1/255. -/
def Storage.distance (s : Storage) (query : List Int) (id : Nat) : Option Int :=
  match table s.q.metric s.q.bits s.q.codebook s.q.subs query, s.codeAt id with
  | some t, some c => (sumEntries s.q.bits t 0 c).map (unit * ·)
  | _, _ => none

/-- `dist_calculator(query)` and then `distance_all()` (`storage.rs` 500-537, 626-662), in units of 1/255. -/
def Storage.distanceAll (a : Arch) (s : Storage) (query : List Int) : Option (List Int) :=
  match table s.q.metric s.q.bits s.q.codebook s.q.subs query with
  | none => none
  | some t => computeDistances a t s.q.bits s.q.subs s.code

end Verif.Pq
