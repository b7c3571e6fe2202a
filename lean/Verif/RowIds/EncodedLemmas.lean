import Verif.RowIds.Encoded

/-! # Helper lemmas for compressed integer arrays -/
namespace Verif.RowIds
namespace Enc

/-- Valid arrays: offsets fit their width, and the base is attained (so it is the minimum). -/
def WF : Enc → Prop
  | u16 b o => (∀ x ∈ o, x ≤ 65535) ∧ (0 ∈ o ∨ o = [])
  | u32 b o => (∀ x ∈ o, x ≤ 4294967295) ∧ (0 ∈ o ∨ o = [])
  | u64 v => True

theorem min_le_of_mem {l : List Nat} {x : Nat} (h : x ∈ l) : (l.min?).getD 0 ≤ x := by
  cases hm : l.min? with
  | none => rw [List.min?_eq_none_iff] at hm; subst hm; simp at h
  | some m => exact (List.min?_eq_some_iff.1 hm).2 x h

theorem min_mem {l : List Nat} (h : l ≠ []) : (l.min?).getD 0 ∈ l := by
  cases hm : l.min? with
  | none => exact absurd (List.min?_eq_none_iff.1 hm) h
  | some m => exact (List.min?_eq_some_iff.1 hm).1

theorem le_max_of_mem {l : List Nat} {x : Nat} (h : x ∈ l) : x ≤ (l.max?).getD 0 := by
  cases hm : l.max? with
  | none => rw [List.max?_eq_none_iff] at hm; subst hm; simp at h
  | some m => exact (List.max?_eq_some_iff.1 hm).2 x h

theorem iter_ofList (l : List Nat) : (ofList l).iter = l := by
  unfold ofList
  simp only
  split
  · rename_i h; simp [iter]; simpa using h
  · split
    · rename_i h0 h
      simp only [iter, List.map_map]
      conv => rhs; rw [← List.map_id l]
      apply List.map_congr_left
      intro x hx
      have h1 := min_le_of_mem hx
      have h2 := le_max_of_mem hx
      simp only [Function.comp, id]
      rw [Nat.mod_eq_of_lt (by omega)]; omega
    · split
      · rename_i h0 h1 h
        simp only [iter, List.map_map]
        conv => rhs; rw [← List.map_id l]
        apply List.map_congr_left
        intro x hx
        have h1 := min_le_of_mem hx
        have h2 := le_max_of_mem hx
        simp only [Function.comp, id]
        rw [Nat.mod_eq_of_lt (by omega)]; omega
      · rfl

theorem wf_ofList (l : List Nat) : (ofList l).WF := by
  unfold ofList
  simp only
  split
  · trivial
  · rename_i h0
    have hne : l ≠ [] := by simpa using h0
    split
    · refine ⟨?_, Or.inl ?_⟩
      · intro x hx
        obtain ⟨y, _, rfl⟩ := List.mem_map.1 hx
        have := Nat.mod_lt (y - (l.min?).getD 0) (by omega : 0 < 65536)
        omega
      · exact List.mem_map.2 ⟨_, min_mem hne, by simp⟩
    · split
      · refine ⟨?_, Or.inl ?_⟩
        · intro x hx
          obtain ⟨y, _, rfl⟩ := List.mem_map.1 hx
          have := Nat.mod_lt (y - (l.min?).getD 0) (by omega : 0 < 4294967296)
          omega
        · exact List.mem_map.2 ⟨_, min_mem hne, by simp⟩
      · trivial

theorem len_eq (e : Enc) : e.len = e.iter.length := by
  cases e <;> simp [len, iter]

theorem get_eq (e : Enc) (i : Nat) : e.get i = e.iter[i]? := by
  cases e <;> simp [get, iter]

theorem slice_some (e : Enc) (off len : Nat) (h : off + len ≤ e.len) :
    ∃ e', e.slice off len = some e' ∧ e'.iter = (e.iter.drop off).take len ∧ e'.WF := by
  unfold slice
  rw [if_neg (by omega)]
  cases e with
  | u16 b o => exact ⟨_, rfl, by rw [iter_ofList]; simp [iter], wf_ofList _⟩
  | u32 b o => exact ⟨_, rfl, by rw [iter_ofList]; simp [iter], wf_ofList _⟩
  | u64 v => exact ⟨_, rfl, rfl, trivial⟩

theorem contains_map_add (o : List Nat) (b v : Nat) (h : b ≤ v) :
    (o.map (b + ·)).contains v = o.contains (v - b) := by
  rw [Bool.eq_iff_iff]
  simp only [List.contains_iff_mem, List.mem_map]
  constructor
  · rintro ⟨x, hx, rfl⟩; simpa using hx
  · intro hx; exact ⟨_, hx, by omega⟩

theorem idxOf_map_add (o : List Nat) (b v : Nat) (h : b ≤ v) :
    (o.map (b + ·)).idxOf v = o.idxOf (v - b) := by
  induction o with
  | nil => rfl
  | cons x xs ih =>
    simp only [List.map_cons, List.idxOf_cons, ih]
    by_cases hx : b + x = v
    · have : x = v - b := by omega
      have h2 : (b + x == v) = true := by simpa using hx
      have h3 : (x == v - b) = true := by simpa using this
      rw [h2, h3]
    · have : x ≠ v - b := by omega
      have h2 : (b + x == v) = false := by simpa using hx
      have h3 : (x == v - b) = false := by simpa using this
      rw [h2, h3]

theorem countP_map_add (o : List Nat) (b v : Nat) (h : b ≤ v) :
    (o.map (b + ·)).countP (fun x => decide (x < v)) = o.countP (fun x => decide (x < v - b)) := by
  rw [List.countP_map]
  apply List.countP_congr
  intro x _
  simp only [Function.comp, decide_eq_true_eq]; omega

theorem search_aux (b w : Nat) (o : List Nat) (hb : ∀ x ∈ o, x ≤ w) (v : Nat) :
    (if v < b then Except.error 0 else if v - b > w then Except.error o.length else binSearch o (v - b))
      = binSearch (o.map (b + ·)) v := by
  split
  · rename_i h
    unfold binSearch
    have h1 : (o.map (b + ·)).contains v = false := by
      simp only [List.contains_eq_mem, List.mem_map, decide_eq_false_iff_not, not_exists, not_and]
      intro x _; omega
    have h2 : (o.map (b + ·)).countP (fun x => decide (x < v)) = 0 := by
      rw [List.countP_eq_zero]
      intro x hx
      obtain ⟨y, _, rfl⟩ := List.mem_map.1 hx
      simp; omega
    rw [h1, h2]; rfl
  · rename_i h
    split
    · rename_i hw
      unfold binSearch
      have h1 : (o.map (b + ·)).contains v = false := by
        simp only [List.contains_eq_mem, List.mem_map, decide_eq_false_iff_not, not_exists, not_and]
        intro x hx; have := hb x hx; omega
      have h2 : (o.map (b + ·)).countP (fun x => decide (x < v)) = o.length := by
        have : o.length = (o.map (b + ·)).length := by simp
        rw [this, List.countP_eq_length]
        intro x hx
        obtain ⟨y, hy, rfl⟩ := List.mem_map.1 hx
        have := hb y hy
        simp; omega
      rw [h1, h2]; rfl
    · unfold binSearch
      rw [contains_map_add _ _ _ (by omega), idxOf_map_add _ _ _ (by omega), countP_map_add _ _ _ (by omega)]

theorem search_eq (e : Enc) (h : e.WF) (v : Nat) : e.search v = binSearch e.iter v := by
  cases e with
  | u16 b o => exact search_aux b 65535 o h.1 v
  | u32 b o => exact search_aux b 4294967295 o h.1 v
  | u64 l => rfl

theorem binSearch_ok_iff (l : List Nat) (v : Nat) : (∃ i, binSearch l v = .ok i) ↔ v ∈ l := by
  unfold binSearch
  by_cases h : v ∈ l <;> simp [h]

theorem first_eq (e : Enc) : e.first = e.iter.head? := by
  cases e <;> simp [first, iter]

theorem last_eq (e : Enc) : e.last = e.iter.getLast? := by
  cases e <;> simp [last, iter]

theorem min_base {o : List Nat} (h : 0 ∈ o) (b : Nat) : (o.map (b + ·)).min? = some b := by
  rw [List.min?_eq_some_iff]
  exact ⟨List.mem_map.2 ⟨0, h, by simp⟩, by
    intro x hx
    obtain ⟨y, _, rfl⟩ := List.mem_map.1 hx
    omega⟩

theorem min_eq (e : Enc) (h : e.WF) : e.min = e.iter.min? := by
  cases e with
  | u16 b o =>
    rcases h.2 with h0 | h0
    · have : o.isEmpty = false := by cases o <;> simp_all
      simp [min, iter, this, min_base h0]
    · subst h0; simp [min, iter]
  | u32 b o =>
    rcases h.2 with h0 | h0
    · have : o.isEmpty = false := by cases o <;> simp_all
      simp [min, iter, this, min_base h0]
    · subst h0; simp [min, iter]
  | u64 v => rfl

theorem max_map (o : List Nat) (b : Nat) : (o.map (b + ·)).max? = (o.max?).map (b + ·) := by
  cases hm : o.max? with
  | none => rw [List.max?_eq_none_iff] at hm; subst hm; rfl
  | some m =>
    obtain ⟨h1, h2⟩ := List.max?_eq_some_iff.1 hm
    simp only [Option.map_some]
    rw [List.max?_eq_some_iff]
    refine ⟨List.mem_map.2 ⟨m, h1, rfl⟩, ?_⟩
    intro x hx
    obtain ⟨y, hy, rfl⟩ := List.mem_map.1 hx
    have := h2 y hy
    omega

theorem max_eq (e : Enc) : e.max = e.iter.max? := by
  cases e with
  | u16 b o => simp only [max, iter, max_map]
  | u32 b o => simp only [max, iter, max_map]
  | u64 v => rfl

theorem iter_ofRange (a b : Nat) : (ofRange a b).iter = List.range' a (b - a) := by
  have key : ∀ n, (List.range n).map (a + ·) = List.range' a n := by
    intro n
    rw [List.range_eq_range', List.map_add_range']; simp
  unfold ofRange
  simp only
  split
  · rename_i h
    rw [Nat.mod_eq_of_lt (by omega)]; exact key _
  · split
    · rename_i h
      rw [Nat.mod_eq_of_lt (by omega)]; exact key _
    · rfl

end Enc
end Verif.RowIds
