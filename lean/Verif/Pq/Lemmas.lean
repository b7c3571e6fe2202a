import Verif.Pq.Model
/-! # Product quantization: lemmas on chunks, flat arrays and `transpose` -/
namespace Verif.Pq

theorem pair_lt {n c s j : Nat} (hs : s < c) (hj : j < n) : s * n + j < n * c := by
  have h : s * n + n ≤ n * c := by
    have := Nat.mul_le_mul_left n (show s + 1 ≤ c from hs)
    rw [Nat.mul_add, Nat.mul_comm n s] at this
    omega
  omega

theorem pair_inj {n s s' j j' : Nat} (hj : j < n) (hj' : j' < n) (h : s * n + j = s' * n + j') : s = s' ∧ j = j' := by
  have h1 : (s * n + j) / n = s := by
    rw [Nat.mul_comm, Nat.mul_add_div (by omega), Nat.div_eq_of_lt hj]; rfl
  have h2 : (s' * n + j') / n = s' := by
    rw [Nat.mul_comm, Nat.mul_add_div (by omega), Nat.div_eq_of_lt hj']; rfl
  have : s = s' := by rw [← h1, ← h2, h]
  subst this
  exact ⟨rfl, by omega⟩

/-- Every index of an array of `c` rows of `n` items. -/
theorem pair_of_lt {n c i : Nat} (h : i < n * c) : ∃ s j, s < c ∧ j < n ∧ i = s * n + j := by
  have hn : 0 < n := by
    rcases Nat.eq_zero_or_pos n with hz | hz
    · subst hz; simp at h
    · exact hz
  refine ⟨i / n, i % n, ?_, Nat.mod_lt _ hn, ?_⟩
  · exact Nat.div_lt_of_lt_mul h
  · rw [Nat.mul_comm]; exact (Nat.div_add_mod i n).symm

section flat
variable {α : Type}

theorem length_flatten_eq {k : Nat} : ∀ {L : List (List α)}, (∀ x ∈ L, x.length = k) → L.flatten.length = k * L.length
  | [], _ => by simp
  | x :: L, h => by
    rw [List.flatten_cons, List.length_append, h x List.mem_cons_self, length_flatten_eq (fun y hy => h y (List.mem_cons_of_mem _ hy)), List.length_cons,
      Nat.mul_add]
    omega

theorem flatten_drop {k : Nat} : ∀ {L : List (List α)} (i : Nat), (∀ x ∈ L, x.length = k) → L.flatten.drop (i * k) = (L.drop i).flatten
  | L, 0, _ => by simp
  | [], i + 1, _ => by simp
  | x :: L, i + 1, h => by
    have hx := h x List.mem_cons_self
    have e : (i + 1) * k = x.length + i * k := by rw [hx, Nat.add_mul]; omega
    rw [List.flatten_cons, List.drop_succ_cons, e, List.drop_append]
    have : List.drop (x.length + i * k) x = [] := List.drop_eq_nil_of_le (by omega)
    rw [this, List.nil_append]
    have e2 : x.length + i * k - x.length = i * k := by omega
    rw [e2]
    exact flatten_drop i (fun y hy => h y (List.mem_cons_of_mem _ hy))

theorem flatten_getElem? {k i j : Nat} {L : List (List α)} (h : ∀ x ∈ L, x.length = k) (hj : j < k) :
    L.flatten[i * k + j]? = (L[i]?).bind (fun x => x[j]?) := by
  have e : L.flatten[i * k + j]? = (L.flatten.drop (i * k))[j]? := by rw [List.getElem?_drop]
  rw [e, flatten_drop i h]
  by_cases hi : i < L.length
  · rw [List.drop_eq_getElem_cons hi, List.flatten_cons, List.getElem?_eq_getElem hi]
    rw [List.getElem?_append_left]
    · rfl
    · rw [h _ (List.getElem_mem hi)]; exact hj
  · have h1 : L.drop i = [] := List.drop_eq_nil_of_le (by omega)
    have h2 : L[i]? = none := List.getElem?_eq_none (by omega)
    rw [h1, h2]
    rfl

theorem chunksExact_length (k : Nat) (l : List α) : (chunksExact k l).length = l.length / k := by simp [chunksExact]

theorem chunksExact_getElem? (k i : Nat) (l : List α) (h : i < l.length / k) : (chunksExact k l)[i]? = some ((l.drop (i * k)).take k) := by
  unfold chunksExact
  rw [List.getElem?_map, List.getElem?_range h]; rfl

theorem chunksExact_flatten {k : Nat} (hk : 0 < k) {L : List (List α)} (h : ∀ x ∈ L, x.length = k) : chunksExact k L.flatten = L := by
  apply List.ext_getElem?
  intro i
  by_cases hi : i < L.length
  · rw [chunksExact_getElem? _ _ _ (by rw [length_flatten_eq h, Nat.mul_div_cancel_left _ hk]; exact hi), flatten_drop i h,
      List.drop_eq_getElem_cons hi, List.flatten_cons, List.getElem?_eq_getElem hi]
    rw [List.take_left' (h _ (List.getElem_mem hi))]
  · rw [List.getElem?_eq_none, List.getElem?_eq_none (by omega)]
    rw [chunksExact_length, length_flatten_eq h, Nat.mul_div_cancel_left _ hk]
    omega

theorem chunksExact_mem_length {k : Nat} {l x : List α} (h : x ∈ chunksExact k l) : x.length = k := by
  unfold chunksExact at h
  rw [List.mem_map] at h
  obtain ⟨i, hi, rfl⟩ := h
  have hi := List.mem_range.1 hi
  have hk : 0 < k := by
    rcases Nat.eq_zero_or_pos k with hz | hz
    · subst hz; simp at hi
    · exact hz
  have h1 : (i + 1) * k ≤ l.length := by
    have := Nat.mul_le_mul_right k (show i + 1 ≤ l.length / k from hi)
    have := Nat.div_mul_le_self l.length k
    omega
  rw [Nat.add_mul, Nat.one_mul] at h1
  rw [List.length_take, List.length_drop]
  omega

theorem chunksExact_join {k m : Nat} (hk : 0 < k) {l : List α} (h : l.length = m * k) : (chunksExact k l).flatten = l := by
  induction m generalizing l with
  | zero =>
    have : l = [] := List.length_eq_zero_iff.1 (by simpa using h)
    subst this; simp [chunksExact]
  | succ m ih =>
    have hd : (l.drop k).length = m * k := by rw [List.length_drop, h, Nat.add_mul]; omega
    have := ih hd
    have e : chunksExact k l = l.take k :: chunksExact k (l.drop k) := by
      unfold chunksExact
      rw [h, hd, Nat.mul_div_cancel _ hk, Nat.mul_div_cancel _ hk, List.range_succ_eq_map]
      simp only [List.map_cons, Nat.zero_mul, List.drop_zero, List.map_map, List.cons.injEq, true_and]
      apply List.map_congr_left
      intro i _
      simp only [Function.comp, List.drop_drop]
      rw [show (i.succ) * k = k + i * k by rw [Nat.succ_mul]; omega]
    rw [e, List.flatten_cons, this, List.take_append_drop]

end flat

/-! ## `transpose` -/

section transpose
variable {α : Type}

theorem transposeRow_spec {n v c : Nat} (hv : v < n) : ∀ (cs : List α) (s : Nat) (out : List α), out.length = n * c → s + cs.length ≤ c →
    ∃ r, transposeRow n v s cs out = some r ∧ r.length = n * c ∧
      ∀ s' j, s' < c → j < n → r[s' * n + j]? = if j = v ∧ s ≤ s' ∧ s' < s + cs.length then cs[s' - s]? else out[s' * n + j]?
  | [], s, out, ho, _ => ⟨out, rfl, ho, fun s' j _ _ => by rw [if_neg]; simp only [List.length_nil]; omega⟩
  | a :: cs, s, out, ho, hc => by
    have hlt : s * n + v < out.length := by rw [ho]; exact pair_lt (by simp at hc; omega) hv
    obtain ⟨r, hr, hl, hg⟩ := transposeRow_spec hv cs (s + 1) (out.set (s * n + v) a) (by rw [List.length_set]; exact ho) (by simp at hc; omega)
    refine ⟨r, by simp only [transposeRow]; rw [if_pos hlt]; exact hr, hl, fun s' j hs hj => ?_⟩
    rw [hg s' j hs hj]
    by_cases h1 : j = v ∧ s + 1 ≤ s' ∧ s' < s + 1 + cs.length
    · rw [if_pos h1, if_pos ⟨h1.1, by omega, by simp; omega⟩]
      rw [show s' - s = (s' - (s + 1)) + 1 by omega, List.getElem?_cons_succ]
    · rw [if_neg h1]
      by_cases h2 : j = v ∧ s = s'
      · obtain ⟨rfl, rfl⟩ := h2
        rw [if_pos ⟨rfl, by omega, by simp⟩, List.getElem?_set_self hlt]
        simp
      · rw [if_neg (by simp; omega), List.getElem?_set_ne]
        intro he
        obtain ⟨e1, e2⟩ := pair_inj hv hj he
        exact h2 ⟨e2.symm, e1⟩

theorem transposeRows_spec {n c : Nat} : ∀ (rows : List (List α)) (v : Nat) (out : List α), out.length = n * c → v + rows.length ≤ n → (∀ r ∈ rows, r.length = c) →
    ∃ r, transposeRows n v rows out = some r ∧ r.length = n * c ∧
      ∀ s j, s < c → j < n → r[s * n + j]? = if v ≤ j ∧ j < v + rows.length then (rows[j - v]?).bind (fun x => x[s]?) else out[s * n + j]?
  | [], v, out, ho, _, _ => ⟨out, rfl, ho, fun s j _ _ => by rw [if_neg]; simp⟩
  | x :: rows, v, out, ho, hn, hr => by
    have hx := hr x List.mem_cons_self
    obtain ⟨o, h1, h2, h3⟩ := transposeRow_spec (n := n) (v := v) (c := c) (by simp at hn; omega) x 0 out ho (by omega)
    obtain ⟨r, h4, h5, h6⟩ := transposeRows_spec rows (v + 1) o h2 (by simp at hn; omega) (fun y hy => hr y (List.mem_cons_of_mem _ hy))
    refine ⟨r, by simp only [transposeRows]; rw [h1]; exact h4, h5, fun s j hs hj => ?_⟩
    rw [h6 s j hs hj]
    by_cases hc : v + 1 ≤ j ∧ j < v + 1 + rows.length
    · rw [if_pos hc, if_pos ⟨by omega, by simp; omega⟩, show j - v = (j - (v + 1)) + 1 by omega, List.getElem?_cons_succ]
    · rw [if_neg hc, h3 s j hs hj]
      by_cases hv : j = v
      · subst hv
        rw [if_pos ⟨rfl, by omega, by omega⟩, if_pos ⟨by omega, by simp⟩]
        simp
      · rw [if_neg (fun h => hv h.1), if_neg]
        simp; omega

/-- The columns of rows of `c` items. -/
def columns [Inhabited α] (c : Nat) (rows : List (List α)) : List (List α) := (List.range c).map (fun s => rows.map (fun r => r.getD s default))

theorem columns_mem_length [Inhabited α] {c : Nat} {rows : List (List α)} {x : List α} (h : x ∈ columns c rows) : x.length = rows.length := by
  unfold columns at h
  rw [List.mem_map] at h
  obtain ⟨i, _, rfl⟩ := h
  simp

theorem columns_getElem? [Inhabited α] {c s : Nat} (rows : List (List α)) (h : s < c) : (columns c rows)[s]? = some (rows.map (fun r => r.getD s default)) := by
  unfold columns
  rw [List.getElem?_map, List.getElem?_range h]; rfl

/-- The `j`-th items of the columns are the `j`-th row. -/
theorem columns_row [Inhabited α] {c j : Nat} {rows : List (List α)} {r : List α} (hr : rows[j]? = some r) (hc : r.length = c) :
    (columns c rows).map (fun x => x.getD j default) = r := by
  unfold columns
  rw [List.map_map]
  apply List.ext_getElem?
  intro i
  by_cases hi : i < c
  · rw [List.getElem?_map, List.getElem?_range hi]
    simp [List.getD_eq_getElem?_getD, hr, List.getElem?_eq_getElem (show i < r.length by omega)]
  · rw [List.getElem?_eq_none (by simp; omega), List.getElem?_eq_none (by omega)]

theorem transpose_eq [Inhabited α] {c : Nat} {rows : List (List α)} (h : ∀ r ∈ rows, r.length = c) (hc : 0 < c) :
    transpose rows.flatten rows.length c = some (columns c rows).flatten := by
  unfold transpose
  by_cases he : rows = []
  · subst he
    have : (columns c ([] : List (List α))).flatten = [] := by
      apply List.length_eq_zero_iff.1
      rw [length_flatten_eq (k := 0) (fun x hx => by rw [columns_mem_length hx]; rfl)]; simp
    simp [this]
  · have hpos : 0 < rows.length := List.length_pos_iff.2 he
    have hlen := length_flatten_eq h
    have hne : rows.flatten ≠ [] := by
      intro hx
      rw [hx, List.length_nil] at hlen
      have := Nat.mul_pos hc hpos
      omega
    rw [if_neg hne, if_neg (by omega), chunksExact_flatten hc h]
    obtain ⟨r, h1, h2, h3⟩ := transposeRows_spec (n := rows.length) (c := c) rows 0 (List.replicate rows.flatten.length default)
      (by rw [List.length_replicate, hlen, Nat.mul_comm]) (by omega) h
    rw [h1]
    congr 1
    have hcl : (columns c rows).flatten.length = rows.length * c := by
      rw [length_flatten_eq (k := rows.length) (fun x hx => columns_mem_length hx)]
      simp [columns]
    apply List.ext_getElem?
    intro i
    by_cases hi : i < rows.length * c
    · obtain ⟨s, j, hs, hj, rfl⟩ := pair_of_lt hi
      rw [h3 s j hs hj, if_pos ⟨by omega, by omega⟩, flatten_getElem? (fun x hx => columns_mem_length hx) hj, columns_getElem? _ hs]
      simp only [Nat.sub_zero, Option.bind_some, List.getElem?_map, List.getElem?_eq_getElem hj, Option.map_some]
      have := h _ (List.getElem_mem hj)
      rw [List.getElem?_eq_getElem (by omega), List.getD_eq_getElem?_getD, List.getElem?_eq_getElem (by omega)]; rfl
    · rw [List.getElem?_eq_none (by omega), List.getElem?_eq_none (by omega)]

end transpose

end Verif.Pq
