import Verif.Sq.Lemmas
/-!
# C109: distances of a scalar-quantized index are those of the vectors, up to the rounding of numbers
-/
namespace Verif.Sq

/-- The distance of two vectors.  For cosine the vectors have the length `n`, and the distance is in units of 1/`n`². -/
def trueDist (n : Int) : Metric → List Int → List Int → Int
  | .l2, x, y => (List.zipWith (fun a c => (a - c) * (a - c)) x y).sum
  | .dot, x, y => 1 - (List.zipWith (· * ·) x y).sum
  | .cosine, x, y => n * n - (List.zipWith (· * ·) x y).sum

/-- What a distance may differ by if each number is off by at most 1/510 of the range `r`, in units of 1/255². -/
def allowed (m : Metric) (r : Int) (x y : List Int) : Int :=
  match m with
  | .dot => (List.zipWith (fun a c => r * (255 * max a (-a) + 255 * max c (-c) + r)) x y).sum
  | _ => (List.zipWith (fun a c => r * (2 * (255 * (max (a - c) (c - a))) + r)) x y).sum

/-- The least and the largest number of a sample. -/
def Spread (sample : List (List Int)) (lo hi : Int) : Prop :=
  (∃ x ∈ sample, lo ∈ x) ∧ (∃ x ∈ sample, hi ∈ x) ∧ ∀ x ∈ sample, ∀ v ∈ x, lo ≤ v ∧ v ≤ hi

/-- C109: an index of rows, trained on a sample of them, reports distances up to rounding. -/
def C109_statement : Prop :=
  ∀ (n : Int) (norm : List Int → List Int) (m : Metric) (dim : Nat) (sample : List (List Int)) (rows : List (Nat × List Int)) (query : List Int) (lo hi : Int),
    0 < dim → (∀ r ∈ rows, r.2.length = dim) → query.length = dim → (∀ x ∈ sample, ∃ r ∈ rows, r.2 = x) → Spread sample lo hi →
    (m = .cosine → ∀ x, (x = query ∨ ∃ r ∈ rows, r.2 = x) → norm x = x ∧ (List.zipWith (· * ·) x x).sum = n * n) →
    ∃ s, create norm m dim sample rows = some s ∧ s.rowIds = rows.map Prod.fst ∧
      ∀ (j : Nat) (r : Nat × List Int), rows[j]? = some r → ∃ d, s.distance norm query j = some d ∧
        d ≤ 65025 * trueDist n m r.2 query + allowed m (hi - lo) r.2 query ∧ 65025 * trueDist n m r.2 query ≤ d + allowed m (hi - lo) r.2 query

theorem spread_train {sample : List (List Int)} {lo hi : Int} (h : Spread sample lo hi) : train sample = some ⟨lo, hi⟩ := by
  obtain ⟨⟨x, hx, h1⟩, ⟨y, hy, h2⟩, h3⟩ := h
  obtain ⟨b, hb⟩ := train_some (sample := sample) (fun he => by
    have := List.mem_flatten.2 ⟨x, hx, h1⟩
    rw [he] at this
    simp at this)
  obtain ⟨t1, t2, t3⟩ := train_spec hb
  obtain ⟨x', hx', t2⟩ := List.mem_flatten.1 t2
  obtain ⟨y', hy', t3⟩ := List.mem_flatten.1 t3
  have a1 := t1 x hx lo h1
  have a2 := t1 y hy hi h2
  have a3 := h3 x' hx' _ t2
  have a4 := h3 y' hy' _ t3
  rw [hb]
  congr 1
  cases b with
  | mk s e =>
    simp only at a1 a2 a3 a4
    simp only [Bounds.mk.injEq]
    omega

/-- An index of L2 or dot that is trained on a sample with more than one number. -/
theorem create_eq (norm : List Int → List Int) {m : Metric} (hm : m ≠ .cosine) {dim : Nat} {sample : List (List Int)} {rows : List (Nat × List Int)} {lo hi : Int}
    (h : ∀ r ∈ rows, r.2.length = dim) (hs : Spread sample lo hi) (hlt : lo < hi) : create norm m dim sample rows = some (stored ⟨lo, hi⟩ m dim rows) := by
  have hp : prepare norm m = id := by
    funext v
    unfold prepare
    rw [if_neg hm]
    rfl
  unfold create buildPart
  rw [hp, List.map_id, spread_train hs]
  simp only [id]
  rw [show rows.map (fun r => (r.1, r.2)) = rows by
    conv => rhs; rw [← List.map_id rows]
    rfl]
  exact build_eq hlt m h

/-- C109 in part: for L2, with all numbers brought between the least and the largest of the sample. -/
theorem C109_clamped_partial (norm : List Int → List Int) (dim : Nat) (sample : List (List Int)) (rows : List (Nat × List Int)) (query : List Int) (lo hi : Int)
    (h : ∀ r ∈ rows, r.2.length = dim) (hs : Spread sample lo hi) (hlt : lo < hi) (hdim : dim ≤ 66051) :
    ∃ s, create norm .l2 dim sample rows = some s ∧ s.rowIds = rows.map Prod.fst ∧
      ∀ (j : Nat) (r : Nat × List Int), rows[j]? = some r → ∃ d, s.distance norm query j = some d ∧
        d ≤ 65025 * trueDist 0 .l2 (r.2.map (fun v => max lo (min hi v))) (query.map (fun v => max lo (min hi v))) +
            allowed .l2 (hi - lo) (r.2.map (fun v => max lo (min hi v))) (query.map (fun v => max lo (min hi v))) ∧
          65025 * trueDist 0 .l2 (r.2.map (fun v => max lo (min hi v))) (query.map (fun v => max lo (min hi v))) ≤
            d + allowed .l2 (hi - lo) (r.2.map (fun v => max lo (min hi v))) (query.map (fun v => max lo (min hi v))) := by
  refine ⟨_, create_eq norm (by decide) h hs hlt, rfl, ?_⟩
  intro j r hj
  refine ⟨_, distance_eq hlt h norm query hj, ?_⟩
  exact l2Codes_close (b := ⟨lo, hi⟩) hlt r.2 query (by rw [h r (List.mem_of_getElem? hj)]; exact hdim)

/-- C109 in part: for L2, if no number of the row or the query is outside of the sample. -/
theorem C109_l2_partial (norm : List Int → List Int) (dim : Nat) (sample : List (List Int)) (rows : List (Nat × List Int)) (query : List Int) (lo hi : Int)
    (h : ∀ r ∈ rows, r.2.length = dim) (hs : Spread sample lo hi) (hlt : lo < hi) (hdim : dim ≤ 66051) (hq : ∀ v ∈ query, lo ≤ v ∧ v ≤ hi) :
    ∃ s, create norm .l2 dim sample rows = some s ∧ s.rowIds = rows.map Prod.fst ∧
      ∀ (j : Nat) (r : Nat × List Int), rows[j]? = some r → (∀ v ∈ r.2, lo ≤ v ∧ v ≤ hi) → ∃ d, s.distance norm query j = some d ∧
        d ≤ 65025 * trueDist 0 .l2 r.2 query + allowed .l2 (hi - lo) r.2 query ∧ 65025 * trueDist 0 .l2 r.2 query ≤ d + allowed .l2 (hi - lo) r.2 query := by
  obtain ⟨s, s1, s2, s3⟩ := C109_clamped_partial norm dim sample rows query lo hi h hs hlt hdim
  refine ⟨s, s1, s2, ?_⟩
  intro j r hj hr
  obtain ⟨d, d1, d2⟩ := s3 j r hj
  have e1 : r.2.map (fun v => max lo (min hi v)) = r.2 := clamp_id (b := ⟨lo, hi⟩) hr
  have e2 : query.map (fun v => max lo (min hi v)) = query := clamp_id (b := ⟨lo, hi⟩) hq
  rw [e1, e2] at d2
  exact ⟨d, d1, d2⟩

/-- C109 in part: a row that is the query has the distance zero for L2, also outside of the sample. -/
theorem C109_self_partial (norm : List Int → List Int) (dim : Nat) (sample : List (List Int)) (rows : List (Nat × List Int)) (lo hi : Int)
    (h : ∀ r ∈ rows, r.2.length = dim) (hs : Spread sample lo hi) (hlt : lo < hi) :
    ∃ s, create norm .l2 dim sample rows = some s ∧ ∀ (j : Nat) (r : Nat × List Int), rows[j]? = some r → s.distance norm r.2 j = some 0 := by
  refine ⟨_, create_eq norm (by decide) h hs hlt, ?_⟩
  intro j r hj
  rw [distance_eq hlt h norm r.2 hj]
  congr 1
  have : ∀ x : List Nat, (List.zipWith (fun a c => (max a c - min a c) ^ 2) x x).sum = 0 := by
    intro x
    induction x with
    | nil => rfl
    | cons a x ih => simp only [List.zipWith_cons_cons, List.sum_cons, ih]; simp
  show inverse _ ((l2Codes _ _ : Nat) : Int) = 0
  unfold l2Codes inverse
  rw [show prepare norm .l2 r.2 = r.2 from rfl, this]
  simp

/-- C109 in part: for dot, if the least number of the sample is zero and no number is outside of the sample: `(hi - lo)² - d` is the product, up to rounding.
(The distance should be `255²` less the product.) -/
theorem C109_dot_partial (norm : List Int → List Int) (dim : Nat) (sample : List (List Int)) (rows : List (Nat × List Int)) (query : List Int) (hi : Int)
    (h : ∀ r ∈ rows, r.2.length = dim) (hs : Spread sample 0 hi) (hlt : 0 < hi) (hdim : dim ≤ 66051) (hq : ∀ v ∈ query, 0 ≤ v ∧ v ≤ hi) :
    ∃ s, create norm .dot dim sample rows = some s ∧ s.rowIds = rows.map Prod.fst ∧
      ∀ (j : Nat) (r : Nat × List Int), rows[j]? = some r → (∀ v ∈ r.2, 0 ≤ v ∧ v ≤ hi) → ∃ d, s.distance norm query j = some d ∧
        2 * (hi ^ 2 - d) ≤ 2 * (65025 * (List.zipWith (· * ·) r.2 query).sum) + (List.zipWith (fun a c => hi * (255 * a + 255 * c + hi)) r.2 query).sum ∧
          2 * (65025 * (List.zipWith (· * ·) r.2 query).sum) ≤ 2 * (hi ^ 2 - d) + (List.zipWith (fun a c => hi * (255 * a + 255 * c + hi)) r.2 query).sum := by
  refine ⟨_, create_eq norm (by decide) h hs hlt, rfl, ?_⟩
  intro j r hj hr
  refine ⟨_, distance_eq hlt h norm query hj, ?_⟩
  have hc := dotSum_close (b := ⟨0, hi⟩) rfl hlt r.2 query hr hq
  have hle := dotSum_le (r.2.map (codeNum ⟨0, hi⟩)) (query.map (codeNum ⟨0, hi⟩)) (codes_le (b := ⟨0, hi⟩) hlt _) (codes_le (b := ⟨0, hi⟩) hlt _)
  rw [List.length_map, h r (List.mem_of_getElem? hj)] at hle
  have e : hi ^ 2 - reported ⟨0, hi⟩ .dot (prepare norm .dot query) r =
      ((List.zipWith (· * ·) (r.2.map (codeNum ⟨0, hi⟩)) (query.map (codeNum ⟨0, hi⟩))).sum : Nat) * hi ^ 2 := by
    unfold reported inverse
    simp only [Metric.codes, dotCodes]
    rw [show prepare norm .dot query = query from rfl, Nat.mod_eq_of_lt (by omega), Int.sub_zero]
    rw [Int.sub_mul, Int.one_mul]
    omega
  rw [e]
  exact hc

/-- Numbers outside of the sample count as the largest of it: the query 1000 has the distance zero to the row 1 (and to the row 1000), if the sample is 0 and 1. -/
theorem C109_outside_violated : ¬ C109_statement := by
  intro h
  obtain ⟨s, s1, _, s2⟩ := h 0 id .l2 1 [[0], [1]] [(0, [0]), (1, [1]), (2, [1000])] [1000] 0 1 (by decide) (by decide) rfl (by decide)
    ⟨⟨[0], by decide, by decide⟩, ⟨[1], by decide, by decide⟩, by decide⟩ (by intro hc; exact absurd hc (by decide))
  have e : create id .l2 1 [[0], [1]] [(0, [0]), (1, [1]), (2, [1000])] = some ⟨⟨0, 1⟩, .l2, 1, [0, 1, 2], [0, 255, 255]⟩ := by decide +kernel
  rw [e] at s1
  obtain rfl := Option.some.inj s1
  obtain ⟨d, d1, d2, d3⟩ := s2 1 (1, [1]) rfl
  have e2 : Storage.distance id ⟨⟨0, 1⟩, .l2, 1, [0, 1, 2], [0, 255, 255]⟩ [1000] 1 = some 0 := by decide +kernel
  rw [e2] at d1
  obtain rfl := Option.some.inj d1
  revert d3
  decide +kernel

/-- If all numbers of the sample are equal, no index can be made: `unwrap` of the byte of NaN. -/
theorem C109_constant_violated : ¬ C109_statement := by
  intro h
  obtain ⟨s, s1, _⟩ := h 0 id .l2 2 [[5, 5]] [(0, [5, 5])] [5, 5] 5 5 (by decide) (by decide) rfl (by decide)
    ⟨⟨[5, 5], by decide, by decide⟩, ⟨[5, 5], by decide, by decide⟩, by decide⟩ (by intro hc; exact absurd hc (by decide))
  have e : create id .l2 2 [[5, 5]] [(0, [5, 5])] = none := by decide +kernel
  rw [e] at s1
  simp at s1

/-- For dot the product of bytes is used, which are relative to the least number: with -255 and 0, the row -255 is as far from the query -255 as the row 0. -/
theorem C109_dot_violated : ¬ C109_statement := by
  intro h
  obtain ⟨s, s1, _, s2⟩ := h 0 id .dot 1 [[-255], [0]] [(0, [-255]), (1, [0])] [-255] (-255) 0 (by decide) (by decide) rfl (by decide)
    ⟨⟨[-255], by decide, by decide⟩, ⟨[0], by decide, by decide⟩, by decide⟩ (by intro hc; exact absurd hc (by decide))
  have e : create id .dot 1 [[-255], [0]] [(0, [-255]), (1, [0])] = some ⟨⟨-255, 0⟩, .dot, 1, [0, 1], [0, 255]⟩ := by decide +kernel
  rw [e] at s1
  obtain rfl := Option.some.inj s1
  obtain ⟨d, d1, d2, d3⟩ := s2 0 (0, [-255]) rfl
  have e2 : Storage.distance id ⟨⟨-255, 0⟩, .dot, 1, [0, 1], [0, 255]⟩ [-255] 0 = some 65025 := by decide +kernel
  rw [e2] at d1
  obtain rfl := Option.some.inj d1
  revert d2
  decide +kernel

/-- For cosine the squared distance of the normalized vectors is reported, which is twice the cosine distance: 2 instead of 1 for orthogonal vectors. -/
theorem C109_cosine_violated : ¬ C109_statement := by
  intro h
  obtain ⟨s, s1, _, s2⟩ := h 255 id .cosine 2 [[255, 0], [0, 255]] [(0, [255, 0]), (1, [0, 255])] [255, 0] 0 255 (by decide) (by decide) rfl (by decide)
    ⟨⟨[255, 0], by decide, by decide⟩, ⟨[255, 0], by decide, by decide⟩, by decide⟩ (by
      intro _ x hx
      refine ⟨rfl, ?_⟩
      rcases hx with rfl | ⟨r, hr, rfl⟩
      · rfl
      · simp only [List.mem_cons, List.not_mem_nil, or_false] at hr
        rcases hr with rfl | rfl <;> rfl)
  have e : create id .cosine 2 [[255, 0], [0, 255]] [(0, [255, 0]), (1, [0, 255])] = some ⟨⟨0, 255⟩, .cosine, 2, [0, 1], [255, 0, 0, 255]⟩ := by decide +kernel
  rw [e] at s1
  obtain rfl := Option.some.inj s1
  obtain ⟨d, d1, d2, d3⟩ := s2 1 (1, [0, 255]) rfl
  have e2 : Storage.distance id ⟨⟨0, 255⟩, .cosine, 2, [0, 1], [255, 0, 0, 255]⟩ [255, 0] 1 = some (2 * 65025 * 65025) := by decide +kernel
  rw [e2] at d1
  obtain rfl := Option.some.inj d1
  revert d2
  decide +kernel

/-- For cosine the reported distance is the squared distance of the normalized vectors, up to rounding. -/
theorem C109_cosine_partial (norm : List Int → List Int) (dim : Nat) (sample : List (List Int)) (rows : List (Nat × List Int)) (query : List Int) (lo hi : Int)
    (h : ∀ r ∈ rows, (norm r.2).length = dim) (hs : Spread (sample.map norm) lo hi) (hlt : lo < hi) (hdim : dim ≤ 66051) (hq : ∀ v ∈ norm query, lo ≤ v ∧ v ≤ hi) :
    ∃ s, create norm .cosine dim sample rows = some s ∧ s.rowIds = rows.map Prod.fst ∧
      ∀ (j : Nat) (r : Nat × List Int), rows[j]? = some r → (∀ v ∈ norm r.2, lo ≤ v ∧ v ≤ hi) → ∃ d, s.distance norm query j = some d ∧
        d ≤ 65025 * trueDist 0 .l2 (norm r.2) (norm query) + allowed .l2 (hi - lo) (norm r.2) (norm query) ∧
          65025 * trueDist 0 .l2 (norm r.2) (norm query) ≤ d + allowed .l2 (hi - lo) (norm r.2) (norm query) := by
  have hp : prepare norm .cosine = norm := by
    funext v
    unfold prepare
    rw [if_pos rfl]
  have hsz : Sized dim (rows.map (fun r => (r.1, norm r.2))) := by
    intro r hr
    obtain ⟨r', hr', rfl⟩ := List.mem_map.1 hr
    exact h r' hr'
  have hc : create norm .cosine dim sample rows = some (stored ⟨lo, hi⟩ .cosine dim (rows.map (fun r => (r.1, norm r.2)))) := by
    unfold create buildPart
    rw [hp, spread_train hs]
    exact build_eq hlt .cosine hsz
  refine ⟨_, hc, by simp [stored], ?_⟩
  intro j r hj hr
  have hj' : (rows.map (fun r => (r.1, norm r.2)))[j]? = some (r.1, norm r.2) := by rw [List.getElem?_map, hj]; rfl
  refine ⟨_, distance_eq hlt hsz norm query hj', ?_⟩
  rw [hp]
  have hl := l2Codes_close (b := ⟨lo, hi⟩) hlt (norm r.2) (norm query) (by rw [h r (List.mem_of_getElem? hj)]; exact hdim)
  rw [clamp_id (b := ⟨lo, hi⟩) hr, clamp_id (b := ⟨lo, hi⟩) hq] at hl
  exact hl

theorem sq_expand : ∀ (x y : List Int), x.length = y.length →
    (List.zipWith (fun a c => (a - c) * (a - c)) x y).sum = (List.zipWith (· * ·) x x).sum + (List.zipWith (· * ·) y y).sum - 2 * (List.zipWith (· * ·) x y).sum
  | [], [], _ => rfl
  | a :: x, c :: y, h => by
    have ih := sq_expand x y (by simpa using h)
    simp only [List.zipWith_cons_cons, List.sum_cons]
    rw [ih]
    have e : (a - c) * (a - c) = a * a + c * c - 2 * (a * c) := by
      rw [Int.sub_mul, Int.mul_sub, Int.mul_sub, Int.mul_comm c a]
      omega
    rw [e]
    omega
  | [], _ :: _, h => by simp at h
  | _ :: _, [], h => by simp at h

/-- What is reported for cosine is twice the cosine distance: the squared distance of vectors of the same length `n` is. -/
theorem C109_cosine_twice (n : Int) (x y : List Int) (hl : x.length = y.length) (hx : (List.zipWith (· * ·) x x).sum = n * n) (hy : (List.zipWith (· * ·) y y).sum = n * n) :
    trueDist 0 .l2 x y = 2 * trueDist n .cosine x y := by
  unfold trueDist
  simp only
  rw [sq_expand x y hl, hx, hy]
  omega

/-- The hypotheses of `C109_l2_partial` are met: 0, 10 and 4 are the bytes 0, 255 and 102. -/
theorem C109_nonvacuous : Spread [[0, 10]] 0 10 ∧ (create id .l2 2 [[0, 10]] [(7, [0, 10]), (8, [4, 9])]).map (fun s => (s.rowIds, s.codes, s.distance id [4, 4] 0)) =
    some ([7, 8], [0, 255, 102, 230], some 3381300) ∧ 65025 * trueDist 0 .l2 [0, 10] [4, 4] = 3381300 := by
  refine ⟨⟨⟨[0, 10], by decide, by decide⟩, ⟨[0, 10], by decide, by decide⟩, by decide⟩, by decide +kernel, by decide +kernel⟩

end Verif.Sq
