import Verif.Pq.LemmasFour
/-!
# C105: a vector index with product quantization reports the distance of the query and the quantized vector

Distances are in units of 1/255 (`unit`).
-/
namespace Verif.Pq

/-- The storage that is built of rows, and the vectors that the rows are quantized to. -/
structure Built (q : Quantizer) (rows : List (Nat × List Int)) (s : Storage) (recs : List (List Int)) : Prop where
  built : Storage.build q rows = some s
  ids : s.rowIds = rows.map Prod.fst
  len : recs.length = rows.length
  quantized : ∀ (j : Nat) (r : Nat × List Int) (x : List Int), rows[j]? = some r → recs[j]? = some x → Quantized q r.2 x

/-- C105: rows can be added to the index; each is quantized to the nearest vector of centroids; a search without a filter (`distanceAll`) and a search
with a filter (`distance`) both report the distance of the query and the quantized vector. -/
def C105_statement : Prop :=
  ∀ (q : Quantizer) (rows : List (Nat × List Int)), Valid q → (∀ r ∈ rows, r.2.length = q.dim) →
    ∃ s recs, Built q rows s recs ∧ ∀ (a : Arch) (query : List Int), query.length = q.dim →
      s.distanceAll a query = some (recs.map (fun x => unit * q.metric.dist query x)) ∧
      ∀ (j : Nat) (x : List Int), recs[j]? = some x → s.distance query j = some (unit * q.metric.dist query x)

/-- The vectors that codes stand for. -/
theorem built_of_codes {q : Quantizer} {rows : List (Nat × List Int)} {codes : List (List Nat)} (hl : codes.length = rows.length)
    (hb : Storage.build q rows = some ⟨q, (columns q.codeLen codes).flatten, rows.map Prod.fst⟩)
    (hc : ∀ (j : Nat) (r : Nat × List Int) (c : List Nat), rows[j]? = some r → codes[j]? = some c → CodeFor q r.2 c) :
    Built q rows ⟨q, (columns q.codeLen codes).flatten, rows.map Prod.fst⟩ (codes.map (fun c => reconstruct q (unpack q.bits c))) where
  built := hb
  ids := rfl
  len := by simp [hl]
  quantized := by
    intro j r x hr hx
    rw [List.getElem?_map] at hx
    cases h : codes[j]? with
    | none => rw [h] at hx; simp at hx
    | some c =>
      rw [h] at hx
      simp only [Option.map_some, Option.some.injEq] at hx
      have := hc j r c hr h
      exact ⟨_, this.choice, hx.symm, by rw [← hx]; exact this.best⟩

theorem code_for {q : Quantizer} {rows : List (Nat × List Int)} {codes : List (List Nat)} (hl : codes.length = rows.length)
    (hc : ∀ (j : Nat) (r : Nat × List Int) (c : List Nat), rows[j]? = some r → codes[j]? = some c → CodeFor q r.2 c) (j : Nat) (c : List Nat) (h : codes[j]? = some c) :
    ∃ v, CodeFor q v c := by
  have hj : j < rows.length := by
    rcases Nat.lt_or_ge j rows.length with h' | h'
    · exact h'
    · rw [List.getElem?_eq_none (by omega)] at h; exact absurd h (by simp)
  exact ⟨_, hc j _ c (List.getElem?_eq_getElem hj) h⟩

/-- What the sum over sub-vectors adds to the dot distance: `1 - x·y` is added up once for every sub-vector. -/
def dotExtra (q : Quantizer) : Int := if q.metric = .dot then (q.subs : Int) - 1 else 0

theorem extra_eq (q : Quantizer) : q.metric.extra q.subs = dotExtra q := by
  unfold dotExtra Metric.extra
  cases q.metric <;> simp

/-- For all metrics and widths of codes: the distance that a search with a filter reports is the right one, for dot plus the number of further sub-vectors;
with 8 bits, also the distance that a search without a filter reports. -/
theorem C105_reported_partial (q : Quantizer) (rows : List (Nat × List Int)) (hq : Valid q) (hr : ∀ r ∈ rows, r.2.length = q.dim) :
    ∃ s recs, Built q rows s recs ∧ ∀ (a : Arch) (query : List Int), query.length = q.dim →
      (q.bits = 8 → s.distanceAll a query = some (recs.map (fun x => unit * (q.metric.dist query x + dotExtra q)))) ∧
      ∀ (j : Nat) (x : List Int), recs[j]? = some x → s.distance query j = some (unit * (q.metric.dist query x + dotExtra q)) := by
  obtain ⟨codes, h1, h2, h3⟩ := build_spec hq rows hr
  have h4 := code_for h1 h3
  refine ⟨_, _, built_of_codes h1 h2 h3, fun a query hl => ⟨?_, ?_⟩⟩
  · intro hb
    rw [distanceAll_8 hq hb a hl h4, List.map_map, extra_eq]
    rfl
  · intro j x hx
    rw [List.getElem?_map] at hx
    cases h : codes[j]? with
    | none => rw [h] at hx; simp at hx
    | some c =>
      rw [h] at hx
      simp only [Option.map_some, Option.some.injEq] at hx
      obtain ⟨v, hv⟩ := h4 j c h
      rw [distance_spec hq hl h hv, ← hx, extra_eq]

/-- With 8 bits and L2 (or cosine, which is L2 by then) everything is as it should be. -/
theorem C105_l2_partial (q : Quantizer) (rows : List (Nat × List Int)) (hq : Valid q) (hb : q.bits = 8) (hm : q.metric = .l2) (hr : ∀ r ∈ rows, r.2.length = q.dim) :
    ∃ s recs, Built q rows s recs ∧ ∀ (a : Arch) (query : List Int), query.length = q.dim →
      s.distanceAll a query = some (recs.map (fun x => unit * q.metric.dist query x)) ∧
      ∀ (j : Nat) (x : List Int), recs[j]? = some x → s.distance query j = some (unit * q.metric.dist query x) := by
  obtain ⟨s, recs, h1, h2⟩ := C105_reported_partial q rows hq hr
  have e : dotExtra q = 0 := by unfold dotExtra; rw [hm]; rfl
  refine ⟨s, recs, h1, fun a query hl => ?_⟩
  obtain ⟨h3, h4⟩ := h2 a query hl
  rw [e] at h3 h4
  simp only [Int.add_zero] at h3 h4
  exact ⟨h3 hb, h4⟩

/-! ## 4 bits -/

/-- The distance of the `i`-th part of the query and a centroid. -/
def subDist (q : Quantizer) (query : List Int) (i k : Nat) : Int := q.metric.dist ((query.drop (i * q.width)).take q.width) (centroid q i k)

/-- `lo` is the least distance of a part of the query and a centroid. -/
def Least (q : Quantizer) (query : List Int) (lo : Int) : Prop :=
  (∀ i k, i < q.subs → k < 2 ^ q.bits → lo ≤ subDist q query i k) ∧ ∃ i k, i < q.subs ∧ k < 2 ^ q.bits ∧ subDist q query i k = lo

/-- `hi` is the largest sum of the distances of two adjacent parts of the query and centroids. -/
def Largest (q : Quantizer) (query : List Int) (hi : Int) : Prop :=
  (∀ i k k', i + 1 < q.subs → k < 2 ^ q.bits → k' < 2 ^ q.bits → subDist q query i k + subDist q query (i + 1) k' ≤ hi) ∧
  ∃ i k k', i + 1 < q.subs ∧ k < 2 ^ q.bits ∧ k' < 2 ^ q.bits ∧ subDist q query i k + subDist q query (i + 1) k' = hi

theorem table_subDist {q : Quantizer} (hq : Valid q) {query : List Int} (hl : query.length = q.dim) :
    ∃ t, table q.metric q.bits q.codebook q.subs query = some t ∧ t.length = q.subs * 2 ^ q.bits ∧
      (∀ i k, i < q.subs → k < 2 ^ q.bits → t[i * 2 ^ q.bits + k]? = some (subDist q query i k)) ∧
      ∀ (j k : Nat) (v : List Int), (subVectors q query)[j]? = some v → k < 2 ^ q.bits → t[j * 2 ^ q.bits + k]? = some (q.metric.dist v (centroid q j k)) := by
  obtain ⟨t, h1, h2, h3⟩ := table_spec hq q.metric hl
  refine ⟨t, h1, h2, ?_, h3⟩
  intro i k hi hk
  refine h3 i k _ ?_ hk
  unfold subVectors
  rw [chunksExact_getElem?]
  rw [hl, hq.dim, Nat.mul_div_cancel _ hq.width]
  exact hi

theorem table16 {q : Quantizer} (hb : q.bits = 4) {query : List Int} {t : List Int} (hlen : t.length = q.subs * 2 ^ q.bits)
    (ht : ∀ i k, i < q.subs → k < 2 ^ q.bits → t[i * 2 ^ q.bits + k]? = some (subDist q query i k)) {lo hi : Int} (hlo : Least q query lo) (hhi : Largest q query hi) :
    Table16 t q.subs lo hi := by
  have h16 : (2 : Nat) ^ q.bits = 16 := by rw [hb]
  rw [h16] at hlen ht
  unfold Least at hlo
  unfold Largest at hhi
  rw [h16] at hlo hhi
  refine ⟨hlen, ?_, ?_, ?_, ?_⟩
  · intro x hx
    obtain ⟨n, hn, rfl⟩ := List.mem_iff_getElem.1 hx
    have hi : n / 16 < q.subs := by omega
    have hk : n % 16 < 16 := by omega
    have := ht (n / 16) (n % 16) hi hk
    rw [show n / 16 * 16 + n % 16 = n by omega, List.getElem?_eq_getElem hn] at this
    rw [Option.some.inj this]
    exact hlo.1 _ _ hi hk
  · obtain ⟨i, k, hi, hk, he⟩ := hlo.2
    rw [← he]
    exact List.mem_of_getElem? (ht i k hi hk)
  · intro i x y k k' hi hk hk' hx hy a b ha hb
    subst hx; subst hy
    rw [ht i k (by omega) hk] at ha
    rw [ht (i + 1) k' hi hk'] at hb
    rw [← Option.some.inj ha, ← Option.some.inj hb]
    exact hhi.1 i k k' hi hk hk'
  · obtain ⟨i, k, k', hi, hk, hk', he⟩ := hhi.2
    exact ⟨i, k, k', _, _, hi, hk, hk', ht i k (by omega) hk, ht (i + 1) k' hi hk', he⟩

theorem l2_nonneg (x y : List Int) : 0 ≤ l2 x y := by
  unfold l2
  suffices h : ∀ l : List Int, (∀ z ∈ l, 0 ≤ z) → 0 ≤ l.sum by
    apply h
    intro z hz
    obtain ⟨i, hi, rfl⟩ := List.mem_iff_getElem.1 hz
    rw [List.getElem_zipWith]
    rcases Int.le_total 0 (x[i]'(by simp at hi; omega) - y[i]'(by simp at hi; omega)) with h | h
    · exact Int.mul_nonneg h h
    · exact Int.mul_nonneg_of_nonpos_of_nonpos h h
  intro l
  induction l with
  | nil => intro _; simp
  | cons a l ih =>
    intro h
    rw [List.sum_cons]
    have := h a List.mem_cons_self
    have := ih (fun z hz => h z (List.mem_cons_of_mem _ hz))
    omega

/-- With 4 bits and L2, and at least 15 rows, a search without a filter reports the right distance less a constant (the least entry of the distance table
for every sub-vector but one) and within the precision of the quantized table, if sums of two entries fit in a byte: the least entry is at least a 256th
of the largest sum, or the row is one of the last `n % 16` rows. -/
theorem C105_fourbit_partial (q : Quantizer) (rows : List (Nat × List Int)) (hq : Valid q) (hb : q.bits = 4) (hm : q.metric = .l2)
    (hr : ∀ r ∈ rows, r.2.length = q.dim) (hn : 15 ≤ rows.length) :
    ∃ s recs, Built q rows s recs ∧ ∀ (a : Arch) (query : List Int) (lo hi : Int), query.length = q.dim → Least q query lo → Largest q query hi → lo < hi →
      ∃ ds, s.distanceAll a query = some ds ∧ ds.length = rows.length ∧
        ∀ (j : Nat) (x : List Int) (d : Int), recs[j]? = some x → ds[j]? = some d → (hi ≤ 256 * lo ∨ rows.length / 16 * 16 ≤ j) →
          unit * (q.metric.dist query x - (q.subs - 1) * lo) ≤ d ∧ d ≤ unit * (q.metric.dist query x - (q.subs - 1) * lo) + q.subs * (hi - lo) := by
  obtain ⟨codes, h1, h2, h3⟩ := build_spec hq rows hr
  have h4 := code_for h1 h3
  refine ⟨_, _, built_of_codes h1 h2 h3, fun a query lo hi hl hlo hhi hlt => ?_⟩
  obtain ⟨t, t1, t2, t3, t4⟩ := table_subDist hq hl
  have T := table16 hb t2 t3 hlo hhi
  have hlo0 : 0 ≤ lo := by
    obtain ⟨i, k, _, _, he⟩ := hlo.2
    rw [← he]; unfold subDist; rw [hm]; exact l2_nonneg _ _
  have hbits : q.subs % 2 = 0 := by
    rcases hq.bits with h | h
    · omega
    · exact h.2
  have hs := hq.subs
  have hcl : q.codeLen = q.subs / 2 := by unfold Quantizer.codeLen; rw [if_pos hb]
  have hclp := codeLen_pos hq
  have h16 : (2 : Nat) ^ q.bits = 16 := by rw [hb]
  rw [h16] at t2
  -- every entry is at most the largest sum
  have hle : ∀ (n : Nat) (d : Int), t[n]? = some d → lo ≤ d ∧ d ≤ hi := by
    intro n d hd
    refine ⟨T.least d (List.mem_of_getElem? hd), ?_⟩
    have hn : n < t.length := by
      rcases Nat.lt_or_ge n t.length with h | h
      · exact h
      · rw [List.getElem?_eq_none h] at hd; exact absurd hd (by simp)
    by_cases hc : n / 16 + 1 < q.subs
    · have hy : (n / 16 + 1) * 16 + 0 < t.length := by omega
      have := T.pair (n / 16) n _ (n % 16) 0 hc (by omega) (by omega) (by omega) rfl d _ hd (List.getElem?_eq_getElem hy)
      have := T.least _ (List.getElem_mem hy)
      omega
    · have hy : (n / 16 - 1) * 16 + 0 < t.length := by omega
      have := T.pair (n / 16 - 1) _ n 0 (n % 16) (by omega) (by omega) (by omega) rfl (by omega) _ d (List.getElem?_eq_getElem hy) hd
      have := T.least _ (List.getElem_mem hy)
      omega
  have hbound : ∀ d : Int, lo ≤ d → d ≤ hi → (d - lo) * 255 ≤ (ceilDivU8 ((d - lo) * 255) (hi - lo) : Nat) * (hi - lo) ∧
      (ceilDivU8 ((d - lo) * 255) (hi - lo) : Nat) * (hi - lo) < (d - lo) * 255 + (hi - lo) ∧ ceilDivU8 ((d - lo) * 255) (hi - lo) ≤ 255 := by
    intro d hd1 hd2
    exact ceil_bounds (by omega) (by omega) (by omega)
  generalize hqt : t.map (fun d => ceilDivU8 ((d - lo) * 255) (hi - lo)) = qt
  have hqtl : qt.length = q.subs * 16 := by rw [← hqt, List.length_map, t2]
  have hnw : hi ≤ 256 * lo → ∀ s' c x y, c < 256 → entries qt s' c = some (x, y) → x + y ≤ 255 := by
    intro hw s' c x y hc he
    unfold entries at he
    rw [← hqt] at he
    simp only [List.getElem?_map] at he
    cases e1 : t[s' * 2 * 16 + c % 16]? with
    | none => rw [e1] at he; simp at he
    | some d1 =>
      cases e2 : t[(s' * 2 + 1) * 16 + c / 16]? with
      | none => rw [e1, e2] at he; simp at he
      | some d2 =>
        rw [e1, e2] at he
        simp only [Option.map_some, Option.some.injEq, Prod.mk.injEq] at he
        obtain ⟨a1, a2⟩ := hle _ _ e1
        obtain ⟨b1, b2⟩ := hle _ _ e2
        obtain ⟨p1, p2, p3⟩ := hbound d1 a1 a2
        obtain ⟨r1, r2, r3⟩ := hbound d2 b1 b2
        have hlen2 : (s' * 2 + 1) * 16 + c / 16 < t.length := by
          rcases Nat.lt_or_ge ((s' * 2 + 1) * 16 + c / 16) t.length with h | h
          · exact h
          · rw [List.getElem?_eq_none h] at e2; exact absurd e2 (by simp)
        have hsum : d1 + d2 ≤ hi := T.pair (s' * 2) _ _ (c % 16) (c / 16) (by omega) (by omega) (by omega) rfl rfl d1 d2 e1 e2
        rw [he.1] at p1 p2 p3
        rw [he.2] at r1 r2 r3
        rcases Nat.lt_or_ge 255 (x + y) with h | h
        · exfalso
          have h256 : (256 : Int) ≤ (x : Int) + y := by omega
          have := Int.mul_le_mul_of_nonneg_right h256 (show 0 ≤ hi - lo by omega)
          rw [Int.add_mul] at this
          omega
        · exact h
  obtain ⟨r, r1, r2, r3⟩ := sumPairs_spec a (t := qt) (columns q.codeLen codes) 0 (List.replicate codes.length 0)
      (by
        intro x hx
        refine ⟨by rw [columns_mem_length hx, List.length_replicate], ?_⟩
        intro k hk
        unfold columns at hx
        obtain ⟨s, hsr, rfl⟩ := List.mem_map.1 hx
        obtain ⟨c, hcm, rfl⟩ := List.mem_map.1 hk
        obtain ⟨j, hj, rfl⟩ := List.mem_iff_getElem.1 hcm
        obtain ⟨v, hv⟩ := h4 j _ (List.getElem?_eq_getElem hj)
        have hlen := hv.len
        have hsr := List.mem_range.1 hsr
        rw [List.getD_eq_getElem?_getD, List.getElem?_eq_getElem (show s < codes[j].length by omega)]
        exact hv.small _ (List.getElem_mem _))
      (by rw [hqtl]; simp [columns, hcl]; omega)
  have hn' : 0 < codes.length := by omega
  have hcodelen : (columns q.codeLen codes).flatten.length * 2 / q.subs = codes.length := by
    rw [columns_flatten_length, hcl, Nat.mul_assoc, show q.subs / 2 * 2 = q.subs by omega, Nat.mul_div_cancel _ hs]
  have hne : (columns q.codeLen codes).flatten ≠ [] := by
    intro h
    have := congrArg List.length h
    rw [columns_flatten_length, List.length_nil] at this
    have := Nat.mul_pos hn' hclp
    omega
  refine ⟨r.map (fun d => d * (hi - lo) + unit * lo), ?_, ?_, ?_⟩
  · unfold Storage.distanceAll
    simp only [t1]
    unfold computeDistances
    rw [if_neg hne, if_pos hb]
    unfold distances4
    rw [quantizeTable_eq T, hqt]
    simp only [hcodelen]
    rw [if_neg (by omega), if_neg (by omega), chunksExact_flatten hn' (fun x hx => columns_mem_length hx), r1]
    rfl
  · rw [List.length_map, r2, List.length_replicate, h1]
  · intro j x d hx hd hw
    rw [List.getElem?_map] at hx hd
    cases hcj : codes[j]? with
    | none => rw [hcj] at hx; simp at hx
    | some c =>
      rw [hcj] at hx
      simp only [Option.map_some, Option.some.injEq] at hx
      have hj : j < codes.length := by
        rcases Nat.lt_or_ge j codes.length with h | h
        · exact h
        · rw [List.getElem?_eq_none h] at hcj; exact absurd hcj (by simp)
      obtain ⟨v, hv⟩ := h4 j c hcj
      obtain ⟨y, y1, y2⟩ := r3 j 0 (by simp [hj]) (by
        rcases hw with hw | hw
        · exact Or.inl (hnw hw)
        · exact Or.inr (by rw [List.length_replicate, h1]; exact hw))
      rw [columns_row hcj hv.len] at y1
      have hsum := sumEntries_eq hq t4 hl hv
      rw [hb] at hsum
      obtain ⟨z, z1, z2, z3⟩ := sumEntries_bound (t := t) (u := qt.map Int.ofNat) (lo := lo) (b := hi - lo) (by omega) (by
        intro i d hd
        obtain ⟨b1, b2⟩ := hle i d hd
        obtain ⟨p1, p2, p3⟩ := hbound d b1 b2
        refine ⟨((ceilDivU8 ((d - lo) * 255) (hi - lo) : Nat) : Int), ?_, ?_, ?_⟩
        · rw [← hqt, List.map_map, List.getElem?_map, hd]; rfl
        · omega
        · omega) c 0 _ hsum
      rw [y1] at z1
      have hyz := Option.some.inj z1
      subst hyz
      rw [y2] at hd
      simp only [Option.map_some, Option.some.injEq, Int.zero_add] at hd
      subst hd
      have hlenc : (2 : Int) * c.length = q.subs := by have := hv.len; rw [hcl] at this; omega
      have hex : q.metric.extra q.subs = 0 := by rw [hm]; rfl
      rw [hlenc, hex, ← hb, hx, Int.add_zero] at z2 z3
      have e : ((q.subs : Int) - 1) * lo = q.subs * lo - lo := by rw [Int.sub_mul, Int.one_mul]
      rw [e]
      unfold unit
      constructor <;> omega

/-! ## What goes wrong -/

/-- Two sub-vectors of one number, 4 bits, all centroids the same number `c` but the second of each, which is `d`. -/
def small (m : Metric) (c d : Int) : Quantizer := ⟨4, 2, 2, (c :: d :: List.replicate 14 c) ++ (c :: d :: List.replicate 14 c), m⟩

theorem small_valid (m : Metric) (c d : Int) : Valid (small m c d) where
  bits := Or.inr ⟨rfl, show 2 % 2 = 0 by decide⟩
  subs := show 0 < 2 by decide
  width := show 0 < 2 / 2 by decide
  dim := show 2 = 2 * (2 / 2) by decide
  codebook := by simp [small, Quantizer.width]

/-- The sum over sub-vectors of dot distances is not the dot distance: with two sub-vectors and nothing but zeros it is 2 instead of 1. -/
theorem C105_dot_violated : ∃ (q : Quantizer) (rows : List (Nat × List Int)) (query : List Int), Valid q ∧ q.bits = 8 ∧ (∀ r ∈ rows, r.2.length = q.dim) ∧
    (Storage.build q rows).bind (fun s => s.distanceAll .other query) = some [unit * 2] ∧ ∀ x, q.metric.dist query x = 1 := by
  refine ⟨⟨8, 2, 2, List.replicate 512 0, .dot⟩, [(7, [3, 4])], [0, 0], ⟨Or.inl rfl, show 0 < 2 by decide, show 0 < 2 / 2 by decide, show 2 = 2 * (2 / 2) by decide, List.length_replicate⟩, rfl, ?_, ?_, ?_⟩
  · intro r hr; simp at hr; subst hr; rfl
  · decide +kernel
  · intro x
    match x with
    | [] => rfl
    | [a] => simp [Metric.dist, dotDistance, dotProduct]
    | a :: b :: _ => simp [Metric.dist, dotDistance, dotProduct]

/-- With 4 bits, a search without a filter of a partition with fewer than 15 rows panics, whatever the rows and the query are. -/
theorem C105_few_rows_violated (q : Quantizer) (rows : List (Nat × List Int)) (hq : Valid q) (hb : q.bits = 4) (hr : ∀ r ∈ rows, r.2.length = q.dim)
    (hn : 0 < rows.length) (hn' : rows.length < 15) :
    ∃ s, Storage.build q rows = some s ∧ ∀ (a : Arch) (query : List Int), s.distanceAll a query = none := by
  obtain ⟨codes, h1, h2, h3⟩ := build_spec hq rows hr
  refine ⟨_, h2, fun a query => ?_⟩
  have hs := hq.subs
  have hcl : q.codeLen = q.subs / 2 := by unfold Quantizer.codeLen; rw [if_pos hb]
  have hclp := codeLen_pos hq
  have hbits : q.subs % 2 = 0 := by
    rcases hq.bits with h | h
    · omega
    · exact h.2
  have hcodelen : (columns q.codeLen codes).flatten.length * 2 / q.subs = codes.length := by
    rw [columns_flatten_length, hcl, Nat.mul_assoc, show q.subs / 2 * 2 = q.subs by omega, Nat.mul_div_cancel _ hs]
  have hne : (columns q.codeLen codes).flatten ≠ [] := by
    intro h
    have := congrArg List.length h
    rw [columns_flatten_length, List.length_nil] at this
    have := Nat.mul_pos (show 0 < codes.length by omega) hclp
    omega
  unfold Storage.distanceAll
  cases table q.metric q.bits q.codebook q.subs query with
  | none => rfl
  | some t =>
    simp only
    unfold computeDistances
    rw [if_neg hne, if_pos hb]
    unfold distances4
    cases quantizeTable t with
    | none => rfl
    | some p =>
      obtain ⟨lo, hi, qt⟩ := p
      simp only [hcodelen]
      rw [if_neg (by omega), if_pos (by omega)]

/-- With 4 bits, searches with and without a filter report different distances for the same rows: all entries of the table are 1, so that all distances are 2,
and the search without a filter reports 1. -/
theorem C105_offset_violated : ∃ (q : Quantizer) (rows : List (Nat × List Int)) (query : List Int), Valid q ∧ q.metric = .l2 ∧ (∀ r ∈ rows, r.2.length = q.dim) ∧
    ∀ a, (Storage.build q rows).bind (fun s => s.distanceAll a query) = some (List.replicate 16 (unit * 1)) ∧
      (Storage.build q rows).bind (fun s => s.distance query 0) = some (unit * 2) := by
  refine ⟨small .l2 0 0, List.replicate 16 (7, [3, 4]), [1, 1], small_valid _ _ _, rfl, ?_, ?_⟩
  · intro r hr; rw [(List.mem_replicate.1 hr).2]; rfl
  · intro a
    cases a <;> constructor <;> decide +kernel

/-- With 4 bits on x86-64, the farthest row is reported as the nearest: the sum of the two rounded entries is 256, which is 0 in a byte.
The first row is at distance 2 of the query, the others at distance 1. -/
theorem C105_wrap_violated : ∃ (q : Quantizer) (rows : List (Nat × List Int)) (query : List Int), Valid q ∧ q.metric = .l2 ∧ (∀ r ∈ rows, r.2.length = q.dim) ∧
    (Storage.build q rows).bind (fun s => s.distanceAll .x86 query) = some (0 :: List.replicate 15 256) ∧
    (Storage.build q rows).bind (fun s => s.distance query 0) = some (unit * 2) ∧ (Storage.build q rows).bind (fun s => s.distance query 1) = some (unit * 1) := by
  refine ⟨small .l2 0 1, (7, [1, 1]) :: List.replicate 15 (8, [1, 0]), [0, 0], small_valid _ _ _, rfl, ?_, ?_, ?_, ?_⟩
  · intro r hr
    rcases List.mem_cons.1 hr with rfl | hr
    · rfl
    · rw [(List.mem_replicate.1 hr).2]; rfl
  · decide +kernel
  · decide +kernel
  · decide +kernel

theorem C105_violated : ¬C105_statement := by
  intro h
  obtain ⟨s, recs, hb, hd⟩ := h (small .l2 0 1) [(7, [1, 1])] (small_valid _ _ _) (by intro r hr; simp at hr; subst hr; rfl)
  obtain ⟨s', h1, h2⟩ := C105_few_rows_violated (small .l2 0 1) [(7, [1, 1])] (small_valid _ _ _) rfl (by intro r hr; simp at hr; subst hr; rfl) (by simp) (by simp)
  rw [hb.built] at h1
  have := Option.some.inj h1
  subst this
  have h3 := (hd .x86 [0, 0] rfl).1
  rw [h2] at h3
  exact absurd h3 (by simp)

theorem wide_valid (l : List Int) (hl : l.length = 512) : Valid ⟨8, 2, 2, l, .l2⟩ where
  bits := Or.inl rfl
  subs := show 0 < 2 by decide
  width := show 0 < 2 / 2 by decide
  dim := show 2 = 2 * (2 / 2) by decide
  codebook := by simp only [Quantizer.width, hl]

/-- The hypotheses of the theorems hold for quantizers with different centroids: an 8-bit one and, for the 4-bit bound, a query with `lo = 1` and `hi = 8`. -/
theorem C105_nonvacuous : Valid ⟨8, 2, 2, (List.range 512).map Int.ofNat, .l2⟩ ∧ Valid (small .l2 1 2) ∧ Least (small .l2 1 2) [0, 0] 1 ∧ Largest (small .l2 1 2) [0, 0] 8 := by
  refine ⟨wide_valid _ (by rw [List.length_map, List.length_range]), small_valid _ _ _, ⟨?_, 0, 0, by decide, by decide, by decide⟩,
    ⟨?_, 0, 1, 1, by decide, by decide, by decide, by decide⟩⟩
  · intro i k hi hk
    have : ∀ i, i < 2 → ∀ k, k < 16 → 1 ≤ subDist (small .l2 1 2) [0, 0] i k := by decide
    exact this i hi k hk
  · intro i k k' hi hk hk'
    have : ∀ k, k < 16 → ∀ k', k' < 16 → subDist (small .l2 1 2) [0, 0] 0 k + subDist (small .l2 1 2) [0, 0] 1 k' ≤ 8 := by decide +kernel
    have hi0 : i = 0 := by have : i + 1 < 2 := hi; omega
    subst hi0
    exact this k hk k' hk'

end Verif.Pq
