import Verif.Pq.LemmasDist
/-! # Product quantization: the 4-bit distances -/
namespace Verif.Pq

theorem foldl_min_spec : ∀ (l : List Int) (x : Int), (l.foldl min x ≤ x ∧ ∀ y ∈ l, l.foldl min x ≤ y) ∧ (l.foldl min x = x ∨ l.foldl min x ∈ l)
  | [], x => by simp
  | a :: l, x => by
    obtain ⟨⟨h1, h2⟩, h3⟩ := foldl_min_spec l (min x a)
    simp only [List.foldl_cons]
    refine ⟨⟨by omega, ?_⟩, ?_⟩
    · intro y hy
      rcases List.mem_cons.1 hy with rfl | hy
      · omega
      · exact h2 y hy
    · rcases h3 with h3 | h3
      · rw [h3]
        rcases Int.le_total x a with h | h
        · left; omega
        · right; rw [Int.min_eq_right h]; simp
      · right; exact List.mem_cons_of_mem _ h3

theorem foldl_max_spec : ∀ (l : List Int) (x : Int), (x ≤ l.foldl max x ∧ ∀ y ∈ l, y ≤ l.foldl max x) ∧ (l.foldl max x = x ∨ l.foldl max x ∈ l)
  | [], x => by simp
  | a :: l, x => by
    obtain ⟨⟨h1, h2⟩, h3⟩ := foldl_max_spec l (max x a)
    simp only [List.foldl_cons]
    refine ⟨⟨by omega, ?_⟩, ?_⟩
    · intro y hy
      rcases List.mem_cons.1 hy with rfl | hy
      · omega
      · exact h2 y hy
    · rcases h3 with h3 | h3
      · rw [h3]
        rcases Int.le_total x a with h | h
        · right; rw [Int.max_eq_right h]; simp
        · left; omega
      · right; exact List.mem_cons_of_mem _ h3

theorem minOf_spec {l : List Int} (h : l ≠ []) : ∃ m, minOf l = some m ∧ m ∈ l ∧ ∀ x ∈ l, m ≤ x := by
  cases l with
  | nil => exact absurd rfl h
  | cons a l =>
    obtain ⟨⟨h1, h2⟩, h3⟩ := foldl_min_spec l a
    refine ⟨_, rfl, ?_, ?_⟩
    · rcases h3 with h3 | h3
      · rw [h3]; simp
      · exact List.mem_cons_of_mem _ h3
    · intro x hx
      rcases List.mem_cons.1 hx with rfl | hx
      · exact h1
      · exact h2 x hx

theorem maxOf_spec {l : List Int} (h : l ≠ []) : ∃ m, maxOf l = some m ∧ m ∈ l ∧ ∀ x ∈ l, x ≤ m := by
  cases l with
  | nil => exact absurd rfl h
  | cons a l =>
    obtain ⟨⟨h1, h2⟩, h3⟩ := foldl_max_spec l a
    refine ⟨_, rfl, ?_, ?_⟩
    · rcases h3 with h3 | h3
      · rw [h3]; simp
      · exact List.mem_cons_of_mem _ h3
    · intro x hx
      rcases List.mem_cons.1 hx with rfl | hx
      · exact h1
      · exact h2 x hx

theorem mem_pairMaxes : ∀ {L : List (List Int)} {x : Int}, x ∈ pairMaxes L ↔
    ∃ (i : Nat) (a b : List Int), L[i]? = some a ∧ L[i + 1]? = some b ∧ x = (maxOf a).getD 0 + (maxOf b).getD 0
  | [], x => by simp [pairMaxes]
  | [_], x => by simp [pairMaxes]
  | a :: b :: r, x => by
    simp only [pairMaxes, List.mem_cons, mem_pairMaxes (L := b :: r)]
    constructor
    · rintro (h | ⟨i, c, d, h1, h2, h3⟩)
      · exact ⟨0, a, b, rfl, rfl, h⟩
      · exact ⟨i + 1, c, d, by simpa using h1, by simpa using h2, h3⟩
    · rintro ⟨i, c, d, h1, h2, h3⟩
      cases i with
      | zero => simp at h1 h2; subst h1; subst h2; exact Or.inl h3
      | succ i => exact Or.inr ⟨i, c, d, by simpa using h1, by simpa using h2, h3⟩

/-! ## The quantized table -/

theorem ceil_bounds {a b : Int} (hb : 0 < b) (ha : 0 ≤ a) (hab : a ≤ 255 * b) :
    a ≤ (ceilDivU8 a b : Nat) * b ∧ (ceilDivU8 a b : Nat) * b < a + b ∧ ceilDivU8 a b ≤ 255 := by
  unfold ceilDivU8
  simp only [if_pos hb]
  have h1 := Int.mul_ediv_self_le (x := -a) (k := b) (by omega)
  have h2 := Int.lt_mul_ediv_self_add (x := -a) (k := b) hb
  generalize hc : (-a) / b = c at *
  have hc0 : c ≤ 0 := by
    rcases Int.lt_or_le 0 c with h | h
    · have := Int.mul_le_mul_of_nonneg_left (show 1 ≤ c by omega) (show 0 ≤ b by omega)
      omega
    · exact h
  have hc1 : -255 ≤ c := by
    rcases Int.lt_or_le c (-255) with h | h
    · have := Int.mul_le_mul_of_nonneg_left (show c + 1 ≤ -255 by omega) (show 0 ≤ b by omega)
      rw [Int.mul_add] at this
      omega
    · exact h
  have hn : (-c).toNat ≤ 255 := by omega
  rw [Nat.min_eq_left hn, Int.toNat_of_nonneg (by omega), Int.neg_mul, Int.mul_comm c b]
  exact ⟨by omega, by omega, hn⟩

/-- Entries of a table of `m` rows of 16. -/
structure Table16 (t : List Int) (m : Nat) (lo hi : Int) : Prop where
  len : t.length = m * 16
  least : ∀ x ∈ t, lo ≤ x
  attained : lo ∈ t
  pair : ∀ i x y k k' : Nat, i + 1 < m → k < 16 → k' < 16 → x = i * 16 + k → y = (i + 1) * 16 + k' → ∀ a b : Int, t[x]? = some a → t[y]? = some b → a + b ≤ hi
  pairAttained : ∃ (i k k' : Nat) (a b : Int), i + 1 < m ∧ k < 16 ∧ k' < 16 ∧ t[i * 16 + k]? = some a ∧ t[(i + 1) * 16 + k']? = some b ∧ a + b = hi

theorem row_getElem? {t : List Int} {i k : Nat} (hk : k < 16) :
    ((t.drop (i * 16)).take 16)[k]? = t[i * 16 + k]? := by
  rw [List.getElem?_take_of_lt hk, List.getElem?_drop]

theorem quantizeTable_eq {t : List Int} {m : Nat} {lo hi : Int} (h : Table16 t m lo hi) :
    quantizeTable t = some (lo, hi, t.map (fun d => ceilDivU8 ((d - lo) * 255) (hi - lo))) := by
  obtain ⟨i0, k0, k0', a0, b0, hi0, hk0, hk0', ha0, hb0, hs0⟩ := h.pairAttained
  have hne : t ≠ [] := by intro he; have := h.attained; rw [he] at this; simp at this
  obtain ⟨l, l1, l2, l3⟩ := minOf_spec hne
  have hlo : l = lo := by
    have := l3 lo h.attained
    have := h.least l l2
    omega
  subst hlo
  have hch : chunks 16 t = (List.range m).map (fun i => (t.drop (i * 16)).take 16) := by
    unfold chunks
    rw [h.len, show (m * 16 + 16 - 1) / 16 = m by omega]
  have hget : ∀ (i : Nat) (c : List Int), (chunks 16 t)[i]? = some c → i < m ∧ c = (t.drop (i * 16)).take 16 := by
    intro i c hc
    rw [hch, List.getElem?_map] at hc
    by_cases hi : i < m
    · rw [List.getElem?_range hi] at hc
      exact ⟨hi, by simpa using hc.symm⟩
    · rw [List.getElem?_eq_none (by simpa using hi)] at hc; simp at hc
  have hrow : ∀ i, i < m → ((t.drop (i * 16)).take 16).length = 16 := by
    intro i hi
    rw [List.length_take, List.length_drop, h.len]; omega
  have hmax : ∀ i, i < m → ∃ x k, maxOf ((t.drop (i * 16)).take 16) = some x ∧ k < 16 ∧ t[i * 16 + k]? = some x ∧
      ∀ k' y, k' < 16 → t[i * 16 + k']? = some y → y ≤ x := by
    intro i hi
    obtain ⟨x, x1, x2, x3⟩ := maxOf_spec (l := (t.drop (i * 16)).take 16) (by
      intro he
      have := hrow i hi
      rw [he] at this
      simp at this)
    obtain ⟨k, hk, rfl⟩ := List.mem_iff_getElem.1 x2
    have hk16 : k < 16 := by rw [hrow i hi] at hk; exact hk
    refine ⟨_, k, x1, hk16, ?_, ?_⟩
    · rw [← row_getElem? hk16, List.getElem?_eq_getElem hk]
    · intro k' y hk' hy
      rw [← row_getElem? hk'] at hy
      exact x3 y (List.mem_of_getElem? hy)
  have hpne : pairMaxes (chunks 16 t) ≠ [] := by
    intro he
    have : (maxOf ((t.drop (i0 * 16)).take 16)).getD 0 + (maxOf ((t.drop ((i0 + 1) * 16)).take 16)).getD 0 ∈ pairMaxes (chunks 16 t) := by
      refine mem_pairMaxes.2 ⟨i0, _, _, ?_, ?_, rfl⟩ <;> rw [hch, List.getElem?_map, List.getElem?_range (by omega)] <;> rfl
    rw [he] at this
    simp at this
  obtain ⟨M, m1, m2, m3⟩ := maxOf_spec hpne
  have hM : M = hi := by
    obtain ⟨i, a, b, ha, hb, he⟩ := mem_pairMaxes.1 m2
    obtain ⟨hi1, rfl⟩ := hget i a ha
    obtain ⟨hi2, rfl⟩ := hget (i + 1) b hb
    obtain ⟨x, k, x1, x2, x3, x4⟩ := hmax i hi1
    obtain ⟨y, k', y1, y2, y3, y4⟩ := hmax (i + 1) hi2
    rw [x1, y1] at he
    simp only [Option.getD_some] at he
    have h1 := h.pair i _ _ k k' hi2 x2 y2 rfl rfl x y x3 y3
    obtain ⟨u, ku, u1, u2, u3, u4⟩ := hmax i0 (by omega)
    obtain ⟨v, kv, v1, v2, v3, v4⟩ := hmax (i0 + 1) hi0
    have h2 := m3 (u + v) (mem_pairMaxes.2 ⟨i0, (t.drop (i0 * 16)).take 16, (t.drop ((i0 + 1) * 16)).take 16,
      by rw [hch, List.getElem?_map, List.getElem?_range (by omega)]; rfl, by rw [hch, List.getElem?_map, List.getElem?_range hi0]; rfl, by rw [u1, v1]; rfl⟩)
    have := u4 k0 a0 hk0 ha0
    have := v4 k0' b0 hk0' hb0
    omega
  unfold quantizeTable
  rw [l1, m1, hM]

/-! ## Sums -/

theorem entries_some {α : Type} {t : List α} {s c : Nat} (ht : (s * 2 + 2) * 16 ≤ t.length) (hc : c < 256) : ∃ x y, entries t s c = some (x, y) ∧
    t[s * 2 * 16 + c % 16]? = some x ∧ t[(s * 2 + 1) * 16 + c / 16]? = some y := by
  have h1 : s * 2 * 16 + c % 16 < t.length := by omega
  have h2 : (s * 2 + 1) * 16 + c / 16 < t.length := by omega
  refine ⟨t[s * 2 * 16 + c % 16], t[(s * 2 + 1) * 16 + c / 16], ?_, List.getElem?_eq_getElem h1, List.getElem?_eq_getElem h2⟩
  unfold entries
  rw [List.getElem?_eq_getElem h1, List.getElem?_eq_getElem h2]

theorem addBytes_spec (add : Nat → Nat → Nat) {t : List Nat} {s : Nat} (ht : (s * 2 + 2) * 16 ≤ t.length) : ∀ (cs : List Nat) (ds : List Int), cs.length = ds.length →
    (∀ c ∈ cs, c < 256) → ∃ r, addBytes add t s cs ds = some r ∧ r.length = ds.length ∧
      ∀ (j : Nat) (d : Int) (c : Nat), ds[j]? = some d → cs[j]? = some c → ∃ x y, entries t s c = some (x, y) ∧ r[j]? = some (d + (add x y : Nat))
  | [], [], _, _ => ⟨[], rfl, rfl, by simp⟩
  | c :: cs, d :: ds, h, hc => by
    obtain ⟨r, h1, h2, h3⟩ := addBytes_spec add ht cs ds (by simpa using h) (fun x hx => hc x (List.mem_cons_of_mem _ hx))
    obtain ⟨x, y, he, _, _⟩ := entries_some ht (hc c List.mem_cons_self)
    refine ⟨(d + (add x y : Nat)) :: r, by simp only [addBytes, he, h1], by simp [h2], ?_⟩
    intro j d' c' hd hc'
    cases j with
    | zero => simp at hd hc'; subst hd; subst hc'; exact ⟨x, y, he, by simp⟩
    | succ j => rw [List.getElem?_cons_succ] at hd hc'; rw [List.getElem?_cons_succ]; exact h3 j d' c' hd hc'
  | [], _ :: _, h, _ => by simp at h
  | _ :: _, [], h, _ => by simp at h

theorem addPair_spec (a : Arch) {t : List Nat} {s : Nat} (ht : (s * 2 + 2) * 16 ≤ t.length) {chunk : List Nat} {ds : List Int} (hl : chunk.length = ds.length)
    (hc : ∀ c ∈ chunk, c < 256) : ∃ r, addPair a t s chunk ds = some r ∧ r.length = ds.length ∧
      ∀ (j : Nat) (d : Int) (c : Nat), ds[j]? = some d → chunk[j]? = some c → ∃ x y, entries t s c = some (x, y) ∧
        r[j]? = some (d + ((if j < ds.length / 16 * 16 then a.add x y else x + y : Nat))) := by
  have hf : ds.length / 16 * 16 ≤ ds.length := Nat.div_mul_le_self _ _
  unfold addPair
  rw [if_neg (by omega)]
  generalize hfe : ds.length / 16 * 16 = f at *
  obtain ⟨r1, a1, a2, a3⟩ := addBytes_spec a.add ht (chunk.take f) (ds.take f) (by simp; omega) (fun c h => hc c (List.mem_of_mem_take h))
  obtain ⟨r2, b1, b2, b3⟩ := addBytes_spec (· + ·) ht (chunk.drop f) (ds.drop f) (by simp; omega) (fun c h => hc c (List.mem_of_mem_drop h))
  have hr1 : r1.length = f := by rw [a2, List.length_take]; omega
  refine ⟨r1 ++ r2, by simp only [a1, b1], by rw [List.length_append, hr1, b2, List.length_drop]; omega, ?_⟩
  intro j d c hd hcj
  by_cases hj : j < f
  · obtain ⟨x, y, e1, e2⟩ := a3 j d c (by rw [List.getElem?_take_of_lt hj]; exact hd) (by rw [List.getElem?_take_of_lt hj]; exact hcj)
    exact ⟨x, y, e1, by rw [List.getElem?_append_left (by omega), e2, if_pos hj]⟩
  · obtain ⟨x, y, e1, e2⟩ := b3 (j - f) d c (by rw [List.getElem?_drop, show f + (j - f) = j by omega]; exact hd)
      (by rw [List.getElem?_drop, show f + (j - f) = j by omega]; exact hcj)
    exact ⟨x, y, e1, by rw [List.getElem?_append_right (by omega), hr1, e2, if_neg hj]⟩

theorem entries_map {t : List Nat} {s c x y : Nat} (h : entries t s c = some (x, y)) : entries (t.map Int.ofNat) s c = some ((x : Int), (y : Int)) := by
  unfold entries at h ⊢
  simp only [List.getElem?_map]
  cases h1 : t[s * 2 * 16 + c % 16]? with
  | none => rw [h1] at h; simp at h
  | some u =>
    cases h2 : t[(s * 2 + 1) * 16 + c / 16]? with
    | none => rw [h1, h2] at h; simp at h
    | some v =>
      rw [h1, h2] at h
      simp only [Option.some.injEq, Prod.mk.injEq] at h
      obtain ⟨rfl, rfl⟩ := h
      rfl

theorem sumPairs_spec (a : Arch) {t : List Nat} (cs : List (List Nat)) : ∀ (s : Nat) (ds : List Int), (∀ c ∈ cs, c.length = ds.length ∧ ∀ k ∈ c, k < 256) →
    ((s + cs.length) * 2) * 16 ≤ t.length →
    ∃ r, sumPairs a t s cs ds = some r ∧ r.length = ds.length ∧
      ∀ (j : Nat) (d : Int), ds[j]? = some d → ((∀ s' c x y, c < 256 → entries t s' c = some (x, y) → x + y ≤ 255) ∨ ds.length / 16 * 16 ≤ j) →
        ∃ x, sumEntries 4 (t.map Int.ofNat) s (cs.map (fun c => c.getD j default)) = some x ∧ r[j]? = some (d + x) := by
  induction cs with
  | nil => exact fun s ds _ _ => ⟨ds, rfl, rfl, fun j d h _ => ⟨0, rfl, by simp [h]⟩⟩
  | cons c cs ih =>
    intro s ds hc ht
    simp only [List.length_cons] at ht
    obtain ⟨h1, h2⟩ := hc c List.mem_cons_self
    obtain ⟨r1, a1, a2, a3⟩ := addPair_spec a (t := t) (s := s) (by omega) h1 h2
    obtain ⟨r, b1, b2, b3⟩ := ih (s + 1) r1 (fun x hx => by rw [a2]; exact hc x (List.mem_cons_of_mem _ hx)) (by omega)
    refine ⟨r, by simp only [sumPairs, a1]; exact b1, by omega, ?_⟩
    intro j d hd hno
    have hj : j < ds.length := by
      rcases Nat.lt_or_ge j ds.length with h | h
      · exact h
      · rw [List.getElem?_eq_none h] at hd; exact absurd hd (by simp)
    have hck : c[j]? = some c[j] := List.getElem?_eq_getElem (by omega)
    obtain ⟨x, y, x1, x2⟩ := a3 j d _ hd hck
    have hadd : (if j < ds.length / 16 * 16 then a.add x y else x + y) = x + y := by
      by_cases hjf : j < ds.length / 16 * 16
      · rw [if_pos hjf]
        rcases hno with hno | hno
        · have := hno s _ x y (h2 _ (List.getElem_mem _)) x1
          cases a <;> simp only [Arch.add] <;> omega
        · omega
      · rw [if_neg hjf]
    rw [hadd] at x2
    obtain ⟨z, z1, z2⟩ := b3 j _ x2 (by rw [a2]; exact hno)
    refine ⟨((x + y : Nat) : Int) + z, ?_, by rw [z2]; congr 1; omega⟩
    simp only [List.map_cons, sumEntries]
    rw [if_pos trivial, List.getD_eq_getElem?_getD, hck, Option.getD_some, entries_map x1, z1]
    simp

/-- The sum of quantized entries is close to the sum of entries. -/
theorem sumEntries_bound {t u : List Int} {lo b : Int} (hb : 0 ≤ b)
    (h : ∀ (i : Nat) (d : Int), t[i]? = some d → ∃ z, u[i]? = some z ∧ 255 * (d - lo) ≤ z * b ∧ z * b ≤ 255 * (d - lo) + b) :
    ∀ (bytes : List Nat) (i : Nat) (x : Int), sumEntries 4 t i bytes = some x →
      ∃ y, sumEntries 4 u i bytes = some y ∧ 255 * (x - 2 * bytes.length * lo) ≤ y * b ∧ y * b ≤ 255 * (x - 2 * bytes.length * lo) + 2 * bytes.length * b
  | [], i, x, hx => by
    simp only [sumEntries, Option.some.injEq] at hx
    subst hx
    exact ⟨0, rfl, by simp, by simp⟩
  | c :: bytes, i, x, hx => by
    simp only [sumEntries, if_pos] at hx
    cases h1 : t[i * 2 * 16 + c % 16]? with
    | none => simp [entries, h1] at hx
    | some d1 =>
      cases h2 : t[(i * 2 + 1) * 16 + c / 16]? with
      | none => simp [entries, h1, h2] at hx
      | some d2 =>
        have he : entries t i c = some (d1, d2) := by unfold entries; rw [h1, h2]
        rw [he] at hx
        cases h3 : sumEntries 4 t (i + 1) bytes with
        | none => rw [h3] at hx; simp at hx
        | some r =>
          rw [h3] at hx
          simp only [Option.map_some, Option.some.injEq] at hx
          subst hx
          obtain ⟨z1, e1, l1, u1⟩ := h _ _ h1
          obtain ⟨z2, e2, l2, u2⟩ := h _ _ h2
          obtain ⟨y, e3, l3, u3⟩ := sumEntries_bound hb h bytes (i + 1) r h3
          refine ⟨z1 + z2 + y, ?_, ?_, ?_⟩
          · have : entries u i c = some (z1, z2) := by unfold entries; rw [e1, e2]
            simp only [sumEntries, if_pos, this, e3, Option.map_some]
          · simp only [List.length_cons, Int.natCast_add, Int.mul_add, Int.add_mul, Int.natCast_one] at *
            omega
          · simp only [List.length_cons, Int.natCast_add, Int.mul_add, Int.add_mul, Int.natCast_one] at *
            omega

end Verif.Pq
