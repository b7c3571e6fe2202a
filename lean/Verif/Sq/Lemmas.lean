import Verif.Sq.Model
import Verif.Pq.LemmasPart
/-! # Scalar quantization: lemmas -/
namespace Verif.Sq
open Verif.Pq (slice takeVectors)

/-! ## Training -/

theorem foldl_add : ∀ (vs : List Int) (b : Bounds), (vs.foldl Bounds.add b).start ≤ b.start ∧ b.stop ≤ (vs.foldl Bounds.add b).stop ∧
    ∀ v ∈ vs, (vs.foldl Bounds.add b).start ≤ v ∧ v ≤ (vs.foldl Bounds.add b).stop
  | [], b => ⟨Int.le_refl _, Int.le_refl _, by simp⟩
  | w :: vs, b => by
    obtain ⟨h1, h2, h3⟩ := foldl_add vs (b.add w)
    simp only [List.foldl_cons]
    have e1 : (b.add w).start = min b.start w := rfl
    have e2 : (b.add w).stop = max b.stop w := rfl
    refine ⟨by omega, by omega, ?_⟩
    intro v hv
    rcases List.mem_cons.1 hv with rfl | hv
    · omega
    · exact h3 v hv

theorem foldl_attained : ∀ (vs : List Int) (b : Bounds), ((vs.foldl Bounds.add b).start = b.start ∨ (vs.foldl Bounds.add b).start ∈ vs) ∧
    ((vs.foldl Bounds.add b).stop = b.stop ∨ (vs.foldl Bounds.add b).stop ∈ vs)
  | [], b => ⟨Or.inl rfl, Or.inl rfl⟩
  | w :: vs, b => by
    obtain ⟨h1, h2⟩ := foldl_attained vs (b.add w)
    simp only [List.foldl_cons]
    have e1 : (b.add w).start = min b.start w := rfl
    have e2 : (b.add w).stop = max b.stop w := rfl
    refine ⟨?_, ?_⟩
    · rcases h1 with h | h
      · rw [h, e1]
        rcases Int.le_total b.start w with h' | h'
        · left; omega
        · right; rw [Int.min_eq_right h']; exact List.mem_cons_self
      · exact Or.inr (List.mem_cons_of_mem _ h)
    · rcases h2 with h | h
      · rw [h, e2]
        rcases Int.le_total b.stop w with h' | h'
        · right; rw [Int.max_eq_right h']; exact List.mem_cons_self
        · left; omega
      · exact Or.inr (List.mem_cons_of_mem _ h)

theorem train_spec {sample : List (List Int)} {b : Bounds} (h : train sample = some b) :
    (∀ x ∈ sample, ∀ v ∈ x, b.start ≤ v ∧ v ≤ b.stop) ∧ b.start ∈ sample.flatten ∧ b.stop ∈ sample.flatten := by
  unfold train at h
  cases hf : sample.flatten with
  | nil => rw [hf] at h; simp at h
  | cons w vs =>
    rw [hf] at h
    simp only [Option.some.injEq] at h
    obtain ⟨h1, h2, h3⟩ := foldl_add vs ⟨w, w⟩
    obtain ⟨h4, h5⟩ := foldl_attained vs ⟨w, w⟩
    rw [h] at h1 h2 h3 h4 h5
    refine ⟨?_, ?_, ?_⟩
    · intro x hx v hv
      have hm : v ∈ sample.flatten := List.mem_flatten.2 ⟨x, hx, hv⟩
      rw [hf] at hm
      rcases List.mem_cons.1 hm with rfl | hm
      · exact ⟨h1, h2⟩
      · exact h3 v hm
    · rcases h4 with h | h
      · rw [h]; exact List.mem_cons_self
      · exact List.mem_cons_of_mem _ h
    · rcases h5 with h | h
      · rw [h]; exact List.mem_cons_self
      · exact List.mem_cons_of_mem _ h

theorem train_some {sample : List (List Int)} (h : sample.flatten ≠ []) : ∃ b, train sample = some b := by
  unfold train
  cases hf : sample.flatten with
  | nil => exact absurd hf h
  | cons w vs => exact ⟨_, rfl⟩

/-! ## Numbers -/

/-- The number within the bounds that is nearest. -/
def clamp (b : Bounds) (v : Int) : Int := max b.start (min b.stop v)

/-- The byte of a number. -/
def codeNum (b : Bounds) (v : Int) : Nat := (scale b v).getD 0

theorem round_bound {x r : Int} (hr : 0 < r) (hx : 0 ≤ x) (hxr : x ≤ r) :
    0 ≤ (2 * (x * 255) + r) / (2 * r) ∧ (2 * (x * 255) + r) / (2 * r) ≤ 255 ∧
      2 * (r * ((2 * (x * 255) + r) / (2 * r))) ≤ 2 * (255 * x) + r ∧ 2 * (255 * x) ≤ 2 * (r * ((2 * (x * 255) + r) / (2 * r))) + r := by
  have h2r : 0 < 2 * r := by omega
  have e := Int.mul_ediv_add_emod (2 * (x * 255) + r) (2 * r)
  have l := Int.emod_nonneg (2 * (x * 255) + r) (show 2 * r ≠ 0 by omega)
  have u := Int.emod_lt_of_pos (2 * (x * 255) + r) h2r
  have hdiv : (2 * (x * 255) + r) / (2 * r) < 256 := by
    apply Int.ediv_lt_of_lt_mul h2r
    omega
  refine ⟨Int.ediv_nonneg (by omega) (by omega), by omega, ?_, ?_⟩
  · rw [Int.mul_assoc] at e; omega
  · rw [Int.mul_assoc] at e; omega

theorem scale_spec {b : Bounds} (hb : b.start < b.stop) (v : Int) : scale b v = some (codeNum b v) ∧ codeNum b v ≤ 255 ∧
    2 * ((b.stop - b.start) * (codeNum b v : Int)) ≤ 2 * (255 * (clamp b v - b.start)) + (b.stop - b.start) ∧
    2 * (255 * (clamp b v - b.start)) ≤ 2 * ((b.stop - b.start) * (codeNum b v : Int)) + (b.stop - b.start) := by
  unfold codeNum scale clamp
  by_cases h1 : v < b.start
  · rw [if_pos h1]
    have : max b.start (min b.stop v) = b.start := by omega
    rw [this]
    simp only [Option.getD_some]
    refine ⟨trivial, by omega, ?_, ?_⟩ <;> simp <;> omega
  · rw [if_neg h1]
    by_cases h2 : v > b.stop
    · rw [if_pos h2]
      have : max b.start (min b.stop v) = b.stop := by omega
      rw [this]
      simp only [Option.getD_some]
      refine ⟨trivial, by omega, ?_, ?_⟩ <;> omega
    · rw [if_neg h2, if_neg (by omega)]
      have : max b.start (min b.stop v) = v := by omega
      rw [this]
      simp only [Option.getD_some]
      obtain ⟨r1, r2, r3, r4⟩ := round_bound (x := v - b.start) (r := b.stop - b.start) (by omega) (by omega) (by omega)
      rw [Int.toNat_of_nonneg r1]
      exact ⟨trivial, by omega, r3, r4⟩

theorem scaleAll_eq {b : Bounds} (hb : b.start < b.stop) : ∀ (vs : List Int), scaleAll b vs = some (vs.map (codeNum b))
  | [] => rfl
  | v :: vs => by
    unfold scaleAll
    rw [(scale_spec hb v).1, scaleAll_eq hb vs]
    rfl

/-! ## Distances -/

/-- The squared distance, written on its own. -/
def sq2 (x y : List Int) : Int := (List.zipWith (fun a b => (a - b) * (a - b)) x y).sum

/-- What quantization may change a squared distance by, in units of 1/255², if `r` is the range of the numbers. -/
def tolerance (r : Int) (x y : List Int) : Int := (List.zipWith (fun a b => r * (2 * (255 * (max (a - b) (b - a))) + r)) x y).sum

theorem l2Sum_le : ∀ (x y : List Nat), (∀ a ∈ x, a ≤ 255) → (∀ a ∈ y, a ≤ 255) → (List.zipWith (fun a b => (max a b - min a b) ^ 2) x y).sum ≤ x.length * 65025
  | [], y, _, _ => by simp
  | a :: x, [], _, _ => by simp
  | a :: x, c :: y, hx, hy => by
    have ih := l2Sum_le x y (fun z hz => hx z (List.mem_cons_of_mem _ hz)) (fun z hz => hy z (List.mem_cons_of_mem _ hz))
    have h1 := hx a List.mem_cons_self
    have h2 := hy c List.mem_cons_self
    simp only [List.zipWith_cons_cons, List.sum_cons, List.length_cons]
    have : (max a c - min a c) ^ 2 ≤ 65025 := by
      have h3 : max a c - min a c ≤ 255 := by omega
      have := Nat.pow_le_pow_left h3 2
      simpa using this
    rw [Nat.add_mul]
    omega

theorem sq_close {r a c : Int} (h0 : 0 ≤ r) (h1 : c ≤ a + r) (h2 : a ≤ c + r) : c * c ≤ a * a + r * (2 * (max a (-a)) + r) ∧ a * a ≤ c * c + r * (2 * (max a (-a)) + r) := by
  -- `c = a + t` with `-r ≤ t ≤ r`
  obtain ⟨t, rfl⟩ : ∃ t, c = a + t := ⟨c - a, by omega⟩
  have ht1 : t ≤ r := by omega
  have ht2 : -r ≤ t := by omega
  have hm1 : a ≤ max a (-a) := by omega
  have hm2 : -a ≤ max a (-a) := by omega
  have hm0 : 0 ≤ max a (-a) := by omega
  generalize max a (-a) = m at hm1 hm2 hm0
  have key : t * t ≤ r * r := by
    have := Int.mul_nonneg (show 0 ≤ r - t by omega) (show 0 ≤ r + t by omega)
    have e : (r - t) * (r + t) = r * r - t * t := by
      rw [Int.sub_mul, Int.mul_add, Int.mul_add, Int.mul_comm t r]; omega
    omega
  have p1 := Int.mul_nonneg (show 0 ≤ r - t by omega) (show 0 ≤ m + a by omega)
  have p2 := Int.mul_nonneg (show 0 ≤ r + t by omega) (show 0 ≤ m - a by omega)
  have p3 := Int.mul_nonneg (show 0 ≤ r - t by omega) (show 0 ≤ m - a by omega)
  have p4 := Int.mul_nonneg (show 0 ≤ r + t by omega) (show 0 ≤ m + a by omega)
  have e1 : (r - t) * (m + a) = r * m + r * a - t * m - t * a := by rw [Int.sub_mul, Int.mul_add, Int.mul_add]; omega
  have e2 : (r + t) * (m - a) = r * m - r * a + t * m - t * a := by rw [Int.add_mul, Int.mul_sub, Int.mul_sub]; omega
  have e3 : (r - t) * (m - a) = r * m - r * a - t * m + t * a := by rw [Int.sub_mul, Int.mul_sub, Int.mul_sub]; omega
  have e4 : (r + t) * (m + a) = r * m + r * a + t * m + t * a := by rw [Int.add_mul, Int.mul_add, Int.mul_add]; omega
  have e5 : (a + t) * (a + t) = a * a + 2 * (t * a) + t * t := by rw [Int.add_mul, Int.mul_add, Int.mul_add, Int.mul_comm a t]; omega
  have e6 : r * (2 * m + r) = 2 * (r * m) + r * r := by rw [Int.mul_add, ← Int.mul_assoc, Int.mul_comm r 2, Int.mul_assoc]
  have ht0 : 0 ≤ t * t := by
    rcases Int.le_total 0 t with h | h
    · exact Int.mul_nonneg h h
    · have := Int.mul_nonneg (show 0 ≤ -t by omega) (show 0 ≤ -t by omega)
      rwa [Int.neg_mul_neg] at this
  rw [e5, e6]
  have hta1 : t * a ≤ r * m := by omega
  have hta2 : -(t * a) ≤ r * m := by omega
  exact ⟨by omega, by omega⟩

theorem absdiff_sq (a c : Nat) : (((max a c - min a c) ^ 2 : Nat) : Int) = ((a : Int) - c) * ((a : Int) - c) := by
  rw [Int.natCast_pow, Int.pow_succ, Int.pow_succ, Int.pow_zero, Int.one_mul]
  rcases Nat.le_total a c with h | h
  · have : ((max a c - min a c : Nat) : Int) = -((a : Int) - c) := by omega
    rw [this, Int.neg_mul_neg]
  · have : ((max a c - min a c : Nat) : Int) = (a : Int) - c := by omega
    rw [this]

theorem mul_sq (r d : Int) : d * d * r ^ 2 = (r * d) * (r * d) := by
  rw [Int.pow_succ, Int.pow_succ, Int.pow_zero, Int.one_mul]
  rw [show d * d * (r * r) = (d * r) * (d * r) by
    rw [Int.mul_assoc, Int.mul_assoc]; congr 1; rw [← Int.mul_assoc, ← Int.mul_assoc, Int.mul_comm d r]]
  rw [Int.mul_comm d r]

/-- One number of each vector. -/
theorem term_close {b : Bounds} (hb : b.start < b.stop) (v w : Int) :
    ((((max (codeNum b v) (codeNum b w) - min (codeNum b v) (codeNum b w)) ^ 2 : Nat) : Int)) * (b.stop - b.start) ^ 2 ≤
        65025 * ((clamp b v - clamp b w) * (clamp b v - clamp b w)) + (b.stop - b.start) * (2 * (255 * (max (clamp b v - clamp b w) (clamp b w - clamp b v))) + (b.stop - b.start)) ∧
      65025 * ((clamp b v - clamp b w) * (clamp b v - clamp b w)) ≤
        ((((max (codeNum b v) (codeNum b w) - min (codeNum b v) (codeNum b w)) ^ 2 : Nat) : Int)) * (b.stop - b.start) ^ 2 +
          (b.stop - b.start) * (2 * (255 * (max (clamp b v - clamp b w) (clamp b w - clamp b v))) + (b.stop - b.start)) := by
  obtain ⟨_, _, v3, v4⟩ := scale_spec hb v
  obtain ⟨_, _, w3, w4⟩ := scale_spec hb w
  generalize clamp b v = x at *
  generalize clamp b w = y at *
  generalize codeNum b v = c at *
  generalize codeNum b w = d at *
  rw [absdiff_sq, mul_sq]
  have hr : 0 ≤ b.stop - b.start := by omega
  generalize b.stop - b.start = r at *
  have e : r * ((c : Int) - d) = r * c - r * d := Int.mul_sub _ _ _
  have h := sq_close (r := r) (a := 255 * (x - y)) (c := r * ((c : Int) - d)) hr (by rw [e]; omega) (by rw [e]; omega)
  have e1 : 255 * (x - y) * (255 * (x - y)) = 65025 * ((x - y) * (x - y)) := by
    generalize x - y = z
    rw [show 255 * z * (255 * z) = 255 * (255 * (z * z)) by rw [Int.mul_assoc, Int.mul_left_comm z]]
    omega
  have e2 : max (255 * (x - y)) (-(255 * (x - y))) = 255 * (max (x - y) (y - x)) := by omega
  rw [e1, e2] at h
  exact h

theorem sum_close {b : Bounds} (hb : b.start < b.stop) : ∀ (x y : List Int),
    ((List.zipWith (fun a c => (max a c - min a c) ^ 2) (x.map (codeNum b)) (y.map (codeNum b))).sum : Nat) * (b.stop - b.start) ^ 2 ≤
        65025 * sq2 (x.map (clamp b)) (y.map (clamp b)) + tolerance (b.stop - b.start) (x.map (clamp b)) (y.map (clamp b)) ∧
      65025 * sq2 (x.map (clamp b)) (y.map (clamp b)) ≤
        ((List.zipWith (fun a c => (max a c - min a c) ^ 2) (x.map (codeNum b)) (y.map (codeNum b))).sum : Nat) * (b.stop - b.start) ^ 2 +
          tolerance (b.stop - b.start) (x.map (clamp b)) (y.map (clamp b))
  | [], y => by simp [sq2, tolerance]
  | v :: x, [] => by simp [sq2, tolerance]
  | v :: x, w :: y => by
    obtain ⟨i1, i2⟩ := sum_close hb x y
    obtain ⟨t1, t2⟩ := term_close hb v w
    unfold sq2 tolerance at *
    simp only [List.map_cons, List.zipWith_cons_cons, List.sum_cons]
    rw [Int.natCast_add, Int.add_mul, Int.mul_add]
    omega

theorem codes_le {b : Bounds} (hb : b.start < b.stop) (x : List Int) : ∀ a ∈ x.map (codeNum b), a ≤ 255 := by
  intro a ha
  obtain ⟨v, _, rfl⟩ := List.mem_map.1 ha
  exact (scale_spec hb v).2.1

/-- Squared distances of codes, as long as the sum is a `u32`. -/
theorem l2Codes_close {b : Bounds} (hb : b.start < b.stop) (x y : List Int) (hx : x.length ≤ 66051) :
    inverse b (l2Codes (x.map (codeNum b)) (y.map (codeNum b))) ≤
        65025 * sq2 (x.map (clamp b)) (y.map (clamp b)) + tolerance (b.stop - b.start) (x.map (clamp b)) (y.map (clamp b)) ∧
      65025 * sq2 (x.map (clamp b)) (y.map (clamp b)) ≤
        inverse b (l2Codes (x.map (codeNum b)) (y.map (codeNum b))) + tolerance (b.stop - b.start) (x.map (clamp b)) (y.map (clamp b)) := by
  unfold inverse l2Codes
  have := l2Sum_le (x.map (codeNum b)) (y.map (codeNum b)) (codes_le hb x) (codes_le hb y)
  rw [List.length_map] at this
  rw [Nat.mod_eq_of_lt (by omega)]
  exact sum_close hb x y

theorem clamp_id {b : Bounds} {x : List Int} (h : ∀ v ∈ x, b.start ≤ v ∧ v ≤ b.stop) : x.map (clamp b) = x := by
  conv => rhs; rw [← List.map_id x]
  apply List.map_congr_left
  intro v hv
  have := h v hv
  unfold clamp
  simp only [id]
  omega

/-- What quantization may change a product by, in units of 1/255², twice. -/
def dotTolerance (r : Int) (x y : List Int) : Int := (List.zipWith (fun a c => r * (255 * a + 255 * c + r)) x y).sum

theorem mul_close {r X Y C D : Int} (h0 : 0 ≤ r) (hY : 0 ≤ Y) (hC : 0 ≤ C) (h1 : 2 * C ≤ 2 * X + r) (h2 : 2 * X ≤ 2 * C + r) (h3 : 2 * D ≤ 2 * Y + r) (h4 : 2 * Y ≤ 2 * D + r) :
    2 * (C * D) ≤ 2 * (X * Y) + r * (X + Y + r) ∧ 2 * (X * Y) ≤ 2 * (C * D) + r * (X + Y + r) := by
  have hr2 : 0 ≤ r * r := Int.mul_nonneg h0 h0
  have p1 := Int.mul_nonneg hC (show 0 ≤ 2 * Y + r - 2 * D by omega)
  have p2 := Int.mul_nonneg hC (show 0 ≤ 2 * D + r - 2 * Y by omega)
  have p3 := Int.mul_nonneg hY (show 0 ≤ 2 * X + r - 2 * C by omega)
  have p4 := Int.mul_nonneg hY (show 0 ≤ 2 * C + r - 2 * X by omega)
  have p5 := Int.mul_nonneg h0 (show 0 ≤ 2 * X + r - 2 * C by omega)
  have e1 : C * (2 * Y + r - 2 * D) = 2 * (C * Y) + r * C - 2 * (C * D) := by
    rw [Int.mul_sub, Int.mul_add, Int.mul_left_comm, Int.mul_left_comm C 2 D, Int.mul_comm C r]
  have e2 : C * (2 * D + r - 2 * Y) = 2 * (C * D) + r * C - 2 * (C * Y) := by
    rw [Int.mul_sub, Int.mul_add, Int.mul_left_comm, Int.mul_left_comm C 2 Y, Int.mul_comm C r]
  have e3 : Y * (2 * X + r - 2 * C) = 2 * (X * Y) + r * Y - 2 * (C * Y) := by
    rw [Int.mul_sub, Int.mul_add, Int.mul_left_comm, Int.mul_left_comm Y 2 C, Int.mul_comm Y r, Int.mul_comm Y X, Int.mul_comm Y C]
  have e4 : Y * (2 * C + r - 2 * X) = 2 * (C * Y) + r * Y - 2 * (X * Y) := by
    rw [Int.mul_sub, Int.mul_add, Int.mul_left_comm, Int.mul_left_comm Y 2 X, Int.mul_comm Y r, Int.mul_comm Y X, Int.mul_comm Y C]
  have e5 : r * (2 * X + r - 2 * C) = 2 * (r * X) + r * r - 2 * (r * C) := by
    rw [Int.mul_sub, Int.mul_add, Int.mul_left_comm, Int.mul_left_comm r 2 C]
  have e6 : r * (X + Y + r) = r * X + r * Y + r * r := by rw [Int.mul_add, Int.mul_add]
  rw [e6]
  exact ⟨by omega, by omega⟩

theorem dotSum_le : ∀ (x y : List Nat), (∀ a ∈ x, a ≤ 255) → (∀ a ∈ y, a ≤ 255) → (List.zipWith (· * ·) x y).sum ≤ x.length * 65025
  | [], y, _, _ => by simp
  | a :: x, [], _, _ => by simp
  | a :: x, c :: y, hx, hy => by
    have ih := dotSum_le x y (fun z hz => hx z (List.mem_cons_of_mem _ hz)) (fun z hz => hy z (List.mem_cons_of_mem _ hz))
    have h1 := hx a List.mem_cons_self
    have h2 := hy c List.mem_cons_self
    simp only [List.zipWith_cons_cons, List.sum_cons, List.length_cons]
    have : a * c ≤ 255 * 255 := Nat.mul_le_mul h1 h2
    rw [Nat.add_mul]
    omega

/-- The product, written on its own. -/
def prod (x y : List Int) : Int := (List.zipWith (· * ·) x y).sum

theorem dotSum_close {b : Bounds} (h0 : b.start = 0) (hb : b.start < b.stop) : ∀ (x y : List Int), (∀ v ∈ x, 0 ≤ v ∧ v ≤ b.stop) → (∀ v ∈ y, 0 ≤ v ∧ v ≤ b.stop) →
    2 * (((List.zipWith (· * ·) (x.map (codeNum b)) (y.map (codeNum b))).sum : Nat) * b.stop ^ 2) ≤ 2 * (65025 * prod x y) + dotTolerance b.stop x y ∧
      2 * (65025 * prod x y) ≤ 2 * (((List.zipWith (· * ·) (x.map (codeNum b)) (y.map (codeNum b))).sum : Nat) * b.stop ^ 2) + dotTolerance b.stop x y
  | [], y, _, _ => by simp [prod, dotTolerance]
  | v :: x, [], _, _ => by simp [prod, dotTolerance]
  | v :: x, w :: y, hx, hy => by
    obtain ⟨i1, i2⟩ := dotSum_close h0 hb x y (fun z hz => hx z (List.mem_cons_of_mem _ hz)) (fun z hz => hy z (List.mem_cons_of_mem _ hz))
    have hv := hx v List.mem_cons_self
    have hw := hy w List.mem_cons_self
    obtain ⟨_, _, v3, v4⟩ := scale_spec hb v
    obtain ⟨_, _, w3, w4⟩ := scale_spec hb w
    have cv : clamp b v = v := by unfold clamp; omega
    have cw : clamp b w = w := by unfold clamp; omega
    rw [cv, h0, Int.sub_zero, Int.sub_zero] at v3 v4
    rw [cw, h0, Int.sub_zero, Int.sub_zero] at w3 w4
    have hr : 0 ≤ b.stop := by omega
    obtain ⟨m1, m2⟩ := mul_close (r := b.stop) (X := 255 * v) (Y := 255 * w) (C := b.stop * (codeNum b v : Int)) (D := b.stop * (codeNum b w : Int)) hr (by omega)
      (Int.mul_nonneg hr (by omega)) v3 v4 w3 w4
    have e1 : 255 * v * (255 * w) = 65025 * (v * w) := by
      rw [show 255 * v * (255 * w) = 255 * (255 * (v * w)) by rw [Int.mul_assoc, Int.mul_left_comm v]]
      omega
    have e2 : b.stop * (codeNum b v : Int) * (b.stop * (codeNum b w : Int)) = ((codeNum b v * codeNum b w : Nat) : Int) * b.stop ^ 2 := by
      rw [Int.natCast_mul, Int.pow_succ, Int.pow_succ, Int.pow_zero, Int.one_mul]
      generalize (codeNum b v : Int) = c
      generalize (codeNum b w : Int) = d
      rw [Int.mul_assoc, Int.mul_left_comm c b.stop d, ← Int.mul_assoc, Int.mul_comm (b.stop * b.stop)]
    rw [e1, e2] at m1 m2
    unfold prod dotTolerance at *
    simp only [List.map_cons, List.zipWith_cons_cons, List.sum_cons]
    rw [Int.natCast_add, Int.add_mul]
    omega

/-! ## Partitions -/

/-- The partition of rows whose prepared vectors are given. -/
def stored (b : Bounds) (m : Metric) (dim : Nat) (rows : List (Nat × List Int)) : Storage :=
  ⟨b, m, dim, rows.map Prod.fst, (rows.map (fun r => r.2.map (codeNum b))).flatten⟩

/-- All vectors have the dimension of the index. -/
def Sized (dim : Nat) (rows : List (Nat × List Int)) : Prop := ∀ r ∈ rows, r.2.length = dim

theorem coded_sized {b : Bounds} {dim : Nat} {rows : List (Nat × List Int)} (h : Sized dim rows) : ∀ x ∈ rows.map (fun r => r.2.map (codeNum b)), x.length = dim := by
  intro x hx
  obtain ⟨r, hr, rfl⟩ := List.mem_map.1 hx
  rw [List.length_map, h r hr]

theorem build_eq {b : Bounds} (hb : b.start < b.stop) (m : Metric) {dim : Nat} {rows : List (Nat × List Int)} (h : Sized dim rows) :
    Storage.build b m dim rows = some (stored b m dim rows) := by
  unfold Storage.build
  rw [scaleAll_eq hb, List.map_flatten, List.map_map]
  have := Verif.Pq.length_flatten_eq (coded_sized (b := b) h)
  rw [List.length_map] at this
  simp only [show (List.map (codeNum b) ∘ Prod.snd : Nat × List Int → List Nat) = fun r => r.2.map (codeNum b) from rfl]
  rw [if_pos this]
  rfl

theorem codeAt_eq {b : Bounds} {m : Metric} {dim : Nat} {rows : List (Nat × List Int)} (h : Sized dim rows) {j : Nat} {r : Nat × List Int} (hj : rows[j]? = some r) :
    (stored b m dim rows).codeAt j = some (r.2.map (codeNum b)) := by
  have hs := coded_sized (b := b) h
  have hl := Verif.Pq.length_flatten_eq hs
  have hlt : j < rows.length := (List.getElem?_eq_some_iff.1 hj).1
  have hd := Verif.Pq.flatten_drop j hs
  have hr : r.2.length = dim := h r (List.mem_of_getElem? hj)
  unfold Storage.codeAt slice stored
  simp only
  rw [List.length_map] at hl
  have h1 : (j + 1) * dim ≤ rows.length * dim := Nat.mul_le_mul_right _ hlt
  have h2 : (j + 1) * dim = j * dim + dim := by rw [Nat.add_mul]; omega
  rw [if_pos ⟨by omega, by rw [hl, Nat.mul_comm dim]; exact h1⟩, hd]
  have hdr : (rows.map (fun r => r.2.map (codeNum b))).drop j = r.2.map (codeNum b) :: (rows.map (fun r => r.2.map (codeNum b))).drop (j + 1) := by
    rw [List.drop_eq_getElem_cons (by rw [List.length_map]; exact hlt)]
    congr 1
    have := (List.getElem?_eq_some_iff.1 hj).2
    rw [List.getElem_map, this]
  rw [hdr, List.flatten_cons, h2, show j * dim + dim - j * dim = dim by omega]
  rw [List.take_left' (by rw [List.length_map, hr])]

/-- The distance that is reported for a row. -/
def reported (b : Bounds) (m : Metric) (q : List Int) (r : Nat × List Int) : Int := inverse b (m.codes (r.2.map (codeNum b)) (q.map (codeNum b)))

theorem distanceCode_eq {b : Bounds} {m : Metric} {dim : Nat} {rows : List (Nat × List Int)} (h : Sized dim rows) (q : List Int) {j : Nat} {r : Nat × List Int}
    (hj : rows[j]? = some r) : (stored b m dim rows).distanceCode (q.map (codeNum b)) j = some (reported b m q r) := by
  unfold Storage.distanceCode
  rw [codeAt_eq h hj]
  rfl

theorem distance_eq {b : Bounds} (hb : b.start < b.stop) {m : Metric} {dim : Nat} {rows : List (Nat × List Int)} (h : Sized dim rows) (norm : List Int → List Int) (query : List Int)
    {j : Nat} {r : Nat × List Int} (hj : rows[j]? = some r) : (stored b m dim rows).distance norm query j = some (reported b m (prepare norm m query) r) := by
  unfold Storage.distance
  rw [show (stored b m dim rows).bounds = b from rfl, show (stored b m dim rows).metric = m from rfl, scaleAll_eq hb]
  exact distanceCode_eq h _ hj

end Verif.Sq
