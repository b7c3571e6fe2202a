import Verif.Pq.Model
/-! # Product quantization: what is meant by a quantized vector -/
namespace Verif.Pq

/-- The length of a sub-vector. -/
def Quantizer.width (q : Quantizer) : Nat := q.dim / q.subs

/-- A trained quantizer: 4 bits with an even number of sub-vectors or 8 bits, sub-vectors of one length, all centroids there.
This is what `PQBuildParams::build` makes (`rust/lance-index/src/vector/pq/builder.rs` 89-141). -/
structure Valid (q : Quantizer) : Prop where
  bits : q.bits = 8 ∨ (q.bits = 4 ∧ q.subs % 2 = 0)
  subs : 0 < q.subs
  width : 0 < q.width
  dim : q.dim = q.subs * q.width
  codebook : q.codebook.length = q.subs * (2 ^ q.bits * q.width)

/-- The `k`-th centroid of the `i`-th sub-vector. -/
def centroid (q : Quantizer) (i k : Nat) : List Int := (q.codebook.drop ((i * 2 ^ q.bits + k) * q.width)).take q.width

/-- The centroids of the sub-vectors from the `i`-th on. -/
def centroidsFrom (q : Quantizer) : Nat → List Nat → List (List Int)
  | _, [] => []
  | i, k :: ks => centroid q i k :: centroidsFrom q (i + 1) ks

/-- The vector that a choice of one centroid for every sub-vector stands for. -/
def reconstruct (q : Quantizer) (ks : List Nat) : List Int := (centroidsFrom q 0 ks).flatten

/-- A choice of one centroid for every sub-vector. -/
def Choice (q : Quantizer) (ks : List Nat) : Prop := ks.length = q.subs ∧ ∀ k ∈ ks, k < 2 ^ q.bits

/-- `r` is what `v` is quantized to: the nearest to `v` of all vectors that are made of centroids. -/
def Quantized (q : Quantizer) (v r : List Int) : Prop :=
  ∃ ks, Choice q ks ∧ r = reconstruct q ks ∧ ∀ ks', Choice q ks' → q.metric.dist v r ≤ q.metric.dist v (reconstruct q ks')

end Verif.Pq
