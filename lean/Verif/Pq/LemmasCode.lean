import Verif.Pq.Spec
import Verif.Pq.Lemmas
/-! # Product quantization: codes and distance tables -/
namespace Verif.Pq

/-! ## `argmin` -/

theorem argminFrom_spec : ∀ (vs : List Int) (i j : Nat) (b : Int),
    ∃ k m, argminFrom i (some (j, b)) vs = some (k, m) ∧ m ≤ b ∧ (∀ x ∈ vs, m ≤ x) ∧ ((k = j ∧ m = b) ∨ (i ≤ k ∧ vs[k - i]? = some m))
  | [], i, j, b => ⟨j, b, rfl, Int.le_refl _, by simp, Or.inl ⟨rfl, rfl⟩⟩
  | v :: vs, i, j, b => by
    unfold argminFrom
    by_cases h : v < b
    · rw [if_pos h]
      obtain ⟨k, m, h1, h2, h3, h4⟩ := argminFrom_spec vs (i + 1) i v
      refine ⟨k, m, h1, by omega, ?_, ?_⟩
      · intro x hx
        rcases List.mem_cons.1 hx with rfl | hx
        · exact h2
        · exact h3 x hx
      · rcases h4 with ⟨rfl, rfl⟩ | ⟨h4, h5⟩
        · exact Or.inr ⟨Nat.le_refl _, by simp⟩
        · exact Or.inr ⟨by omega, by rw [show k - i = (k - (i + 1)) + 1 by omega, List.getElem?_cons_succ]; exact h5⟩
    · rw [if_neg h]
      obtain ⟨k, m, h1, h2, h3, h4⟩ := argminFrom_spec vs (i + 1) j b
      refine ⟨k, m, h1, h2, ?_, ?_⟩
      · intro x hx
        rcases List.mem_cons.1 hx with rfl | hx
        · omega
        · exact h3 x hx
      · rcases h4 with ⟨rfl, rfl⟩ | ⟨h4, h5⟩
        · exact Or.inl ⟨rfl, rfl⟩
        · exact Or.inr ⟨by omega, by rw [show k - i = (k - (i + 1)) + 1 by omega, List.getElem?_cons_succ]; exact h5⟩

theorem argmin_spec {vs : List Int} (h : vs ≠ []) : ∃ k m, argmin vs = some k ∧ vs[k]? = some m ∧ ∀ x ∈ vs, m ≤ x := by
  cases vs with
  | nil => exact absurd rfl h
  | cons v vs =>
    obtain ⟨k, m, h1, h2, h3, h4⟩ := argminFrom_spec vs 1 0 v
    refine ⟨k, m, ?_, ?_, ?_⟩
    · unfold argmin argminFrom
      rw [h1]; rfl
    · rcases h4 with ⟨rfl, rfl⟩ | ⟨h4, h5⟩
      · simp
      · rw [show k = (k - 1) + 1 by omega, List.getElem?_cons_succ]; exact h5
    · intro x hx
      rcases List.mem_cons.1 hx with rfl | hx
      · exact h2
      · exact h3 x hx

/-! ## Centroids -/

section
variable {q : Quantizer} (hq : Valid q)
include hq

theorem dim_div : q.dim / q.subs = q.width := rfl

theorem codebook_room {i : Nat} (hi : i < q.subs) : i * (2 ^ q.bits * q.width) + 2 ^ q.bits * q.width ≤ q.codebook.length := by
  rw [hq.codebook]
  have := Nat.mul_le_mul_right (2 ^ q.bits * q.width) (show i + 1 ≤ q.subs from hi)
  rw [Nat.add_mul] at this
  omega

theorem subCentroids_eq {i : Nat} (hi : i < q.subs) {d : Nat} (hd : d = q.dim) :
    ∃ c, subCentroids q.bits q.codebook d q.subs i = some c ∧ c = (q.codebook.drop (i * (2 ^ q.bits * q.width))).take (2 ^ q.bits * q.width) := by
  subst hd
  refine ⟨_, ?_, rfl⟩
  unfold subCentroids slice
  have hs := hq.subs
  have hroom := codebook_room hq hi
  have e1 : i * 2 ^ q.bits * (q.dim / q.subs) = i * (2 ^ q.bits * q.width) := by rw [Nat.mul_assoc]; rfl
  have e2 : (i + 1) * 2 ^ q.bits * (q.dim / q.subs) = i * (2 ^ q.bits * q.width) + 2 ^ q.bits * q.width := by
    rw [Nat.mul_assoc, Nat.add_mul, Nat.one_mul]; rfl
  rw [if_neg (by omega), e1, e2, if_pos ⟨by omega, hroom⟩]
  congr 2
  omega

theorem distanceBatch_eq (m : Metric) {i : Nat} (hi : i < q.subs) {v : List Int} (hv : v.length = q.width) :
    distanceBatch m v ((q.codebook.drop (i * (2 ^ q.bits * q.width))).take (2 ^ q.bits * q.width)) =
      (List.range (2 ^ q.bits)).map (fun k => m.dist v (centroid q i k)) := by
  have hw := hq.width
  have hroom := codebook_room hq hi
  unfold distanceBatch chunksExact
  have hlen : ((q.codebook.drop (i * (2 ^ q.bits * q.width))).take (2 ^ q.bits * q.width)).length = 2 ^ q.bits * q.width := by
    rw [List.length_take, List.length_drop]; omega
  rw [hlen, hv, Nat.mul_div_cancel _ hw, List.map_map]
  apply List.map_congr_left
  intro k hk
  have hk := List.mem_range.1 hk
  simp only [Function.comp]
  congr 1
  unfold centroid
  have hkw : k * q.width + q.width ≤ 2 ^ q.bits * q.width := by
    have := Nat.mul_le_mul_right q.width (show k + 1 ≤ 2 ^ q.bits from hk)
    rw [Nat.add_mul] at this; omega
  rw [List.drop_take, List.take_take, List.drop_drop, Nat.min_eq_left (by omega), Nat.add_mul, Nat.mul_assoc]

theorem centroid_length {i k : Nat} (hi : i < q.subs) (hk : k < 2 ^ q.bits) : (centroid q i k).length = q.width := by
  have hroom := codebook_room hq hi
  unfold centroid
  have hkw : k * q.width + q.width ≤ 2 ^ q.bits * q.width := by
    have := Nat.mul_le_mul_right q.width (show k + 1 ≤ 2 ^ q.bits from hk)
    rw [Nat.add_mul] at this; omega
  rw [List.length_take, List.length_drop, Nat.add_mul, Nat.mul_assoc]
  omega

theorem bits_bound : 2 ^ q.bits ≤ 256 ∧ 0 < 2 ^ q.bits := by
  rcases hq.bits with h | ⟨h, _⟩ <;> rw [h] <;> decide

/-- The sum of the distances of sub-vectors to centroids. -/
def sumDist (m : Metric) (vs cs : List (List Int)) : Int := (List.zipWith m.dist vs cs).sum

theorem codesFrom_spec : ∀ (vs : List (List Int)) (i : Nat), (∀ v ∈ vs, v.length = q.width) → i + vs.length = q.subs →
    ∃ ks, codesFrom q i vs = some ks ∧ ks.length = vs.length ∧ (∀ k ∈ ks, k < 2 ^ q.bits) ∧
      ∀ ks', ks'.length = vs.length → (∀ k ∈ ks', k < 2 ^ q.bits) →
        sumDist q.metric vs (centroidsFrom q i ks) ≤ sumDist q.metric vs (centroidsFrom q i ks')
  | [], i, _, _ => ⟨[], rfl, rfl, by simp, fun ks' h _ => by simp [sumDist]⟩
  | v :: vs, i, hv, hi => by
    simp only [List.length_cons] at hi
    obtain ⟨ks, h1, h2, h3, h4⟩ := codesFrom_spec vs (i + 1) (fun x hx => hv x (List.mem_cons_of_mem _ hx)) (by omega)
    obtain ⟨c, hc, hce⟩ := subCentroids_eq hq (i := i) (by omega) (d := q.dim) rfl
    have hb := bits_bound hq
    have hbatch := distanceBatch_eq hq q.metric (i := i) (by omega) (hv v List.mem_cons_self)
    have hne : (List.range (2 ^ q.bits)).map (fun k => q.metric.dist v (centroid q i k)) ≠ [] := by
      intro h
      have := congrArg List.length h
      simp at this
    obtain ⟨k, m, ha, hg, hm⟩ := argmin_spec hne
    have hk : k < 2 ^ q.bits := by
      rcases Nat.lt_or_ge k (2 ^ q.bits) with h | h
      · exact h
      · rw [List.getElem?_eq_none (by simp; exact h)] at hg; exact absurd hg (by simp)
    have hp : computePartition q.metric c v = some k := by
      unfold computePartition
      rw [hce, hbatch]; exact ha
    refine ⟨k :: ks, ?_, ?_, ?_, ?_⟩
    · unfold codesFrom
      simp only [hc, hp, h1]
      rw [Nat.mod_eq_of_lt (by omega)]
    · simp [h2]
    · intro x hx
      rcases List.mem_cons.1 hx with rfl | hx
      · exact hk
      · exact h3 x hx
    · intro ks' hl hlt
      cases ks' with
      | nil => simp at hl
      | cons k' ks' =>
        have hk' := hlt k' List.mem_cons_self
        have := h4 ks' (by simpa using hl) (fun x hx => hlt x (List.mem_cons_of_mem _ hx))
        simp only [sumDist, centroidsFrom, List.zipWith_cons_cons, List.sum_cons] at this ⊢
        have e1 : q.metric.dist v (centroid q i k) = m := by
          rw [List.getElem?_map, List.getElem?_range hk] at hg
          simpa using hg
        have e2 : m ≤ q.metric.dist v (centroid q i k') := hm _ (List.mem_map.2 ⟨k', List.mem_range.2 hk', rfl⟩)
        omega

/-! ## The distance table -/

theorem tableFrom_spec (m : Metric) : ∀ (vs : List (List Int)) (i : Nat), (∀ v ∈ vs, v.length = q.width) → i + vs.length = q.subs →
    ∃ t, tableFrom m q.bits q.codebook q.dim q.subs i vs = some t ∧ t.length = vs.length * 2 ^ q.bits ∧
      ∀ j k v, vs[j]? = some v → k < 2 ^ q.bits → t[j * 2 ^ q.bits + k]? = some (m.dist v (centroid q (i + j) k))
  | [], i, _, _ => ⟨[], rfl, by simp, fun j k v h => by simp at h⟩
  | v :: vs, i, hv, hi => by
    simp only [List.length_cons] at hi
    obtain ⟨t, h1, h2, h3⟩ := tableFrom_spec m vs (i + 1) (fun x hx => hv x (List.mem_cons_of_mem _ hx)) (by omega)
    obtain ⟨c, hc, hce⟩ := subCentroids_eq hq (i := i) (by omega) (d := q.dim) rfl
    have hbatch := distanceBatch_eq hq m (i := i) (by omega) (hv v List.mem_cons_self)
    refine ⟨distanceBatch m v c ++ t, ?_, ?_, ?_⟩
    · simp only [tableFrom, hc, h1]
    · rw [hce, hbatch]; simp [h2, Nat.add_mul]; omega
    · intro j k x hx hk
      rw [hce, hbatch]
      cases j with
      | zero =>
        simp only [List.getElem?_cons_zero, Option.some.injEq] at hx
        subst hx
        rw [List.getElem?_append_left (by simp; omega), Nat.zero_mul, Nat.zero_add, List.getElem?_map, List.getElem?_range hk]
        simp
      | succ j =>
        rw [List.getElem?_cons_succ] at hx
        rw [List.getElem?_append_right (by simp [Nat.add_mul]; omega)]
        have e : (j + 1) * 2 ^ q.bits + k - ((List.range (2 ^ q.bits)).map (fun k => m.dist v (centroid q i k))).length = j * 2 ^ q.bits + k := by
          simp [Nat.add_mul]; omega
        rw [e, h3 j k x hx hk, show i + 1 + j = i + (j + 1) by omega]

/-- The sub-vectors of a vector. -/
def subVectors (q : Quantizer) (v : List Int) : List (List Int) := chunksExact q.width v

omit hq in
theorem subVectors_mem {v x : List Int} (h : x ∈ subVectors q v) : x.length = q.width := chunksExact_mem_length h

theorem subVectors_length {v : List Int} (h : v.length = q.dim) : (subVectors q v).length = q.subs := by
  unfold subVectors
  rw [chunksExact_length, h, hq.dim, Nat.mul_div_cancel _ hq.width]

theorem subVectors_flatten {v : List Int} (h : v.length = q.dim) : (subVectors q v).flatten = v :=
  chunksExact_join (m := q.subs) hq.width (by rw [h, hq.dim])

theorem table_spec (m : Metric) {query : List Int} (h : query.length = q.dim) :
    ∃ t, table m q.bits q.codebook q.subs query = some t ∧ t.length = q.subs * 2 ^ q.bits ∧
      ∀ j k v, (subVectors q query)[j]? = some v → k < 2 ^ q.bits → t[j * 2 ^ q.bits + k]? = some (m.dist v (centroid q j k)) := by
  obtain ⟨t, h1, h2, h3⟩ := tableFrom_spec hq m (subVectors q query) 0 (fun _ hx => subVectors_mem hx) (by rw [subVectors_length hq h]; omega)
  refine ⟨t, ?_, by rw [h2, subVectors_length hq h], fun j k v hv hk => by rw [h3 j k v hv hk, Nat.zero_add]⟩
  have hs := hq.subs
  have hw := hq.width
  have hw' : q.dim / q.subs = q.width := rfl
  unfold table
  rw [if_pos (by rcases hq.bits with hb | hb; exact Or.inr hb; exact Or.inl hb.1), h, hw', if_neg (by omega)]
  exact h1

end

/-! ## Sums of the distances of sub-vectors -/

theorem zipWith_append_of_length {α β γ : Type} (f : α → β → γ) : ∀ {a : List α} {b : List β} (c : List α) (d : List β), a.length = b.length →
    List.zipWith f (a ++ c) (b ++ d) = List.zipWith f a b ++ List.zipWith f c d
  | [], [], c, d, _ => rfl
  | x :: a, y :: b, c, d, h => by
    simp only [List.cons_append, List.zipWith_cons_cons]
    rw [zipWith_append_of_length f c d (by simpa using h)]
  | [], _ :: _, _, _, h => by simp at h
  | _ :: _, [], _, _, h => by simp at h

theorem sumDist_l2 {w : Nat} : ∀ {vs cs : List (List Int)}, vs.length = cs.length → (∀ v ∈ vs, v.length = w) → (∀ c ∈ cs, c.length = w) →
    sumDist .l2 vs cs = l2 vs.flatten cs.flatten
  | [], [], _, _, _ => by simp [sumDist, l2]
  | v :: vs, c :: cs, h, hv, hc => by
    have ih := sumDist_l2 (vs := vs) (cs := cs) (by simpa using h) (fun x hx => hv x (List.mem_cons_of_mem _ hx)) (fun x hx => hc x (List.mem_cons_of_mem _ hx))
    have e : v.length = c.length := by rw [hv v List.mem_cons_self, hc c List.mem_cons_self]
    simp only [sumDist, List.zipWith_cons_cons, List.sum_cons, Metric.dist] at ih ⊢
    rw [ih]
    unfold l2
    rw [List.flatten_cons, List.flatten_cons, zipWith_append_of_length _ _ _ e, List.sum_append]
  | [], _ :: _, h, _, _ => by simp at h
  | _ :: _, [], h, _, _ => by simp at h

theorem sumDist_dot {w : Nat} : ∀ {vs cs : List (List Int)}, vs.length = cs.length → (∀ v ∈ vs, v.length = w) → (∀ c ∈ cs, c.length = w) →
    sumDist .dot vs cs = (vs.length : Int) - dotProduct vs.flatten cs.flatten
  | [], [], _, _, _ => by simp [sumDist, dotProduct]
  | v :: vs, c :: cs, h, hv, hc => by
    have ih := sumDist_dot (vs := vs) (cs := cs) (by simpa using h) (fun x hx => hv x (List.mem_cons_of_mem _ hx)) (fun x hx => hc x (List.mem_cons_of_mem _ hx))
    have e : v.length = c.length := by rw [hv v List.mem_cons_self, hc c List.mem_cons_self]
    simp only [sumDist, List.zipWith_cons_cons, List.sum_cons, Metric.dist] at ih ⊢
    rw [ih]
    unfold dotDistance dotProduct
    rw [List.flatten_cons, List.flatten_cons, zipWith_append_of_length _ _ _ e, List.sum_append]
    simp only [List.length_cons]
    omega
  | [], _ :: _, h, _, _ => by simp at h
  | _ :: _, [], h, _, _ => by simp at h

/-- What a metric adds when it is summed over sub-vectors. -/
def Metric.extra (m : Metric) (subs : Nat) : Int :=
  match m with
  | .l2 => 0
  | .dot => (subs : Int) - 1

theorem centroidsFrom_length (q : Quantizer) : ∀ (ks : List Nat) (i : Nat), (centroidsFrom q i ks).length = ks.length
  | [], _ => rfl
  | k :: ks, i => by simp [centroidsFrom, centroidsFrom_length q ks]

theorem centroidsFrom_mem {q : Quantizer} (hq : Valid q) : ∀ (ks : List Nat) (i : Nat), i + ks.length ≤ q.subs → (∀ k ∈ ks, k < 2 ^ q.bits) →
    ∀ c ∈ centroidsFrom q i ks, c.length = q.width
  | [], _, _, _ => by simp [centroidsFrom]
  | k :: ks, i, hi, hk => by
    intro c hc
    simp only [List.length_cons] at hi
    rcases List.mem_cons.1 hc with rfl | hc
    · exact centroid_length hq (by omega) (hk k List.mem_cons_self)
    · exact centroidsFrom_mem hq ks (i + 1) (by omega) (fun x hx => hk x (List.mem_cons_of_mem _ hx)) c hc

theorem sumDist_eq {q : Quantizer} (hq : Valid q) (m : Metric) {v : List Int} (hv : v.length = q.dim) {ks : List Nat} (hk : Choice q ks) :
    sumDist m (subVectors q v) (centroidsFrom q 0 ks) = m.dist v (reconstruct q ks) + m.extra q.subs := by
  have hl : (subVectors q v).length = (centroidsFrom q 0 ks).length := by rw [subVectors_length hq hv, centroidsFrom_length, hk.1]
  have h1 : ∀ x ∈ subVectors q v, x.length = q.width := fun _ hx => subVectors_mem hx
  have h2 := centroidsFrom_mem hq ks 0 (by rw [hk.1]; omega) hk.2
  have hf := subVectors_flatten hq hv
  cases m with
  | l2 =>
    rw [sumDist_l2 hl h1 h2, hf]
    simp [Metric.dist, Metric.extra, reconstruct]
  | dot =>
    rw [sumDist_dot hl h1 h2, hf, subVectors_length hq hv]
    simp only [Metric.dist, Metric.extra, reconstruct, dotDistance]
    omega

end Verif.Pq
