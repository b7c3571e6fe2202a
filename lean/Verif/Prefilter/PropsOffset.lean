import Verif.Prefilter.Model

/-!
# C44: fragments by row offset

`rows` are the numbers of live rows of the fragments.
-/
namespace Verif.Prefilter

/-- Offset of the first row of fragment `i`. -/
def startOf (rows : List Nat) (i : Nat) : Nat := (rows.take i).sum

/-- Fragment `i` has a row whose offset is in `start..stop`. -/
def Holds (rows : List Nat) (start stop i : Nat) : Prop :=
  ∃ n, rows[i]? = some n ∧ ∃ r, start ≤ r ∧ r < stop ∧ startOf rows i ≤ r ∧ r < startOf rows i + n

/-- C44, full statement. -/
def C44_statement : Prop :=
  ∀ (rows : List Nat) (found : Option Nat) (start stop : Nat), SearchOK rows start found →
    ∀ i o, (i, o) ∈ byOffset rows found start stop ↔ Holds rows start stop i ∧ o = startOf rows i

/-- It fails: fragments without rows hide the ones after them if the binary search stops at them. -/
theorem C44_hidden_violated : ¬ C44_statement := by
  intro h
  have := (h [5, 0, 5] (some 1) 5 10 rfl 2 5).mpr ⟨⟨5, rfl, 5, by decide⟩, by decide⟩
  revert this
  decide

/-- It fails: a fragment without rows is reported. -/
theorem C44_empty_violated : ¬ C44_statement := by
  intro h
  obtain ⟨⟨n, h1, r, h2⟩, _⟩ := (h [5, 0, 5] (some 0) 0 10 rfl 1 5).mp (by decide)
  cases h1
  have e : startOf [5, 0, 5] 1 = 5 := by decide
  rw [e] at h2
  omega

/-- It fails: for an empty range a fragment is reported. -/
theorem C44_empty_range_violated : ¬ C44_statement := by
  intro h
  obtain ⟨⟨n, h1, r, h2⟩, _⟩ := (h [5] none 3 3 (by simp [SearchOK, offsets]) 0 0).mp (by decide)
  omega

theorem startOf_succ (rows : List Nat) (i n : Nat) (h : rows[i]? = some n) :
    startOf rows (i + 1) = startOf rows i + n := by
  unfold startOf
  rw [List.take_add_one, h]
  simp

theorem getElem?_offsets (rows : List Nat) (acc i : Nat) :
    (offsets acc rows)[i]? = if i ≤ rows.length then some (acc + startOf rows i) else none := by
  induction rows generalizing acc i with
  | nil =>
    cases i with
    | zero => simp [offsets, startOf]
    | succ i => simp [offsets]
  | cons n ns ih =>
    cases i with
    | zero => simp [offsets, startOf]
    | succ i =>
      unfold offsets
      rw [List.getElem?_cons_succ, ih]
      simp only [List.length_cons, Nat.add_le_add_iff_right]
      unfold startOf
      simp [Nat.add_assoc]

theorem startOf_mono (rows : List Nat) {i j : Nat} (h : i ≤ j) : startOf rows i ≤ startOf rows j := by
  induction j with
  | zero => have : i = 0 := by omega
            rw [this]; exact Nat.le_refl _
  | succ j ih =>
    rcases Nat.lt_or_ge j i with hc | hc
    · have : i = j + 1 := by omega
      rw [this]; exact Nat.le_refl _
    · apply Nat.le_trans (ih hc)
      unfold startOf
      rw [List.take_add_one, List.sum_append]
      omega

theorem filter_lt (l : List Nat) (hs : l.Pairwise (· ≤ ·)) (s i o : Nat) (h : l[i]? = some o) :
    o < s ↔ i < (l.filter (fun o => decide (o < s))).length := by
  induction l generalizing i with
  | nil => cases h
  | cons a l ih =>
    obtain ⟨h1, h2⟩ := List.pairwise_cons.mp hs
    rw [List.filter_cons]
    by_cases ha : a < s
    · simp only [ha, decide_true, if_true, List.length_cons]
      cases i with
      | zero => simp at h; omega
      | succ i => rw [List.getElem?_cons_succ] at h; rw [ih h2 i h]; omega
    · have hnil : l.filter (fun o => decide (o < s)) = [] := by
        rw [List.filter_eq_nil_iff]
        intro x hx
        have := h1 x hx
        simp; omega
      simp only [ha, decide_false, Bool.false_eq_true, if_false, hnil, List.length_nil]
      have : a ≤ o := by
        cases i with
        | zero => simp at h; omega
        | succ i => rw [List.getElem?_cons_succ] at h; exact h1 o (List.mem_of_getElem? h)
      omega

theorem offsets_sorted (rows : List Nat) (acc : Nat) : (offsets acc rows).Pairwise (· ≤ ·) ∧ ∀ o ∈ offsets acc rows, acc ≤ o := by
  induction rows generalizing acc with
  | nil => simp [offsets]
  | cons n ns ih =>
    obtain ⟨h1, h2⟩ := ih (acc + n)
    unfold offsets
    refine ⟨List.pairwise_cons.mpr ⟨fun o ho => by have := h2 o ho; omega, h1⟩, ?_⟩
    intro o ho
    rcases List.mem_cons.mp ho with rfl | ho
    · omega
    · have := h2 o ho; omega

theorem reportFrom_spec (start stop : Nat) (ns : List Nat) (i off : Nat)
    (hstart : ns = [] ∨ start < off + ns.headD 0) (j o : Nat) :
    (j, o) ∈ reportFrom start stop i off ns ↔
      ∃ k, j = i + k ∧ k < ns.length ∧ o = off + startOf ns k ∧ o < stop := by
  induction ns generalizing i off with
  | nil => simp [reportFrom]
  | cons n ns ih =>
    have hs : start < off + n := by simpa using hstart
    unfold reportFrom
    split
    · rename_i hc
      constructor
      · intro h; cases h
      · rintro ⟨k, _, _, h1, h2⟩; omega
    · rename_i hc
      rw [List.mem_cons, ih (i + 1) (off + n) (by
        cases ns with
        | nil => exact Or.inl rfl
        | cons m ms => right; simp; omega)]
      constructor
      · rintro (h | ⟨k, h1, h2, h3, h4⟩)
        · cases h; exact ⟨0, rfl, by simp, by simp [startOf], by omega⟩
        · refine ⟨k + 1, by omega, by simpa using h2, ?_, h4⟩
          rw [h3]; unfold startOf; simp [Nat.add_assoc]
      · rintro ⟨k, h1, h2, h3, h4⟩
        cases k with
        | zero => left; simp [startOf] at h3; rw [h1, h3]; rfl
        | succ k =>
          right
          refine ⟨k, by omega, by simpa using h2, ?_, h4⟩
          rw [h3]; unfold startOf; simp [Nat.add_assoc]

/-- C44: if the search finds the last offset that equals `start` (as newer standard libraries do), the
starting offsets are right, the fragments are reported from the first to the last one of the range, and a
fragment with rows is reported exactly if one of them is in the range.  Missing: other searches, empty
ranges, and that fragments without rows are not reported (false, see above). -/
theorem C44_by_offset_partial (rows : List Nat) (found : Option Nat) (start stop : Nat) (h : SearchOK rows start found)
    (hlast : ∀ i, found = some i → (offsets 0 rows)[i + 1]? ≠ some start) (hr : start < stop) :
    (∀ i o, (i, o) ∈ byOffset rows found start stop → o = startOf rows i ∧ i < rows.length) ∧
    (∀ i n, rows[i]? = some n → 0 < n →
      ((i, startOf rows i) ∈ byOffset rows found start stop ↔ Holds rows start stop i)) := by
  generalize hidx : startIndex rows found start = idx
  have hfacts : idx ≤ rows.length ∧ startOf rows idx ≤ start ∧ (idx < rows.length → start < startOf rows (idx + 1)) := by
    cases found with
    | some i =>
      simp only [startIndex] at hidx
      subst hidx
      simp only [SearchOK] at h
      rw [getElem?_offsets] at h
      have h2 := hlast i rfl
      rw [getElem?_offsets] at h2
      by_cases hc : i ≤ rows.length
      · rw [if_pos hc] at h
        simp only [Nat.zero_add, Option.some.injEq] at h
        refine ⟨hc, by omega, fun hl => ?_⟩
        rw [if_pos (by omega)] at h2
        simp only [Nat.zero_add, ne_eq, Option.some.injEq] at h2
        have := startOf_mono rows (Nat.le_succ i)
        simp only [Nat.succ_eq_add_one] at this
        omega
      · rw [if_neg hc] at h; cases h
    | none =>
      simp only [SearchOK] at h
      simp only [startIndex] at hidx
      generalize hc : ((offsets 0 rows).filter (fun o => decide (o < start))).length = c at hidx
      have hf := filter_lt (offsets 0 rows) (offsets_sorted rows 0).1 start
      have h0 : (offsets 0 rows)[0]? = some 0 := by rw [getElem?_offsets]; simp [startOf]
      have hpos : 0 < start := by
        rcases Nat.eq_zero_or_pos start with e | e
        · exact absurd (List.mem_of_getElem? h0) (e ▸ h)
        · exact e
      have hcpos : 0 < c := by have := (hf 0 0 h0).mp hpos; omega
      have hlen : c ≤ rows.length + 1 := by
        rw [← hc]
        have h1 := List.length_filter_le (fun o => decide (o < start)) (offsets 0 rows)
        have h2 : (offsets 0 rows).length ≤ rows.length + 1 := by
          have := getElem?_offsets rows 0 (rows.length + 1)
          rw [if_neg (by omega)] at this
          exact List.getElem?_eq_none_iff.mp this
        omega
      have hidx' : idx = c - 1 := hidx.symm
      have e1 : (offsets 0 rows)[idx]? = some (startOf rows idx) := by
        rw [getElem?_offsets, if_pos (by omega), Nat.zero_add]
      refine ⟨by omega, by have := (hf idx _ e1).mpr (by omega); omega, fun hl => ?_⟩
      have e2 : (offsets 0 rows)[idx + 1]? = some (startOf rows (idx + 1)) := by
        rw [getElem?_offsets, if_pos (by omega), Nat.zero_add]
      have h3 : ¬ startOf rows (idx + 1) < start := by
        intro hlt
        have := (hf _ _ e2).mp hlt
        omega
      have h4 : startOf rows (idx + 1) ≠ start := fun e => h (e ▸ List.mem_of_getElem? e2)
      omega
  obtain ⟨f1, f2, f3⟩ := hfacts
  have hget : (offsets 0 rows).getD idx 0 = startOf rows idx := by
    rw [List.getD_eq_getElem?_getD, getElem?_offsets, if_pos f1]; simp
  have hb : byOffset rows found start stop = reportFrom start stop idx (startOf rows idx) (rows.drop idx) := by
    unfold byOffset
    simp only [hidx, hget]
  have hdrop : ∀ k, startOf rows idx + startOf (rows.drop idx) k = startOf rows (idx + k) := by
    intro k
    unfold startOf
    rw [← List.sum_append, ← List.take_add]
  have hspec := fun j o => reportFrom_spec start stop (rows.drop idx) idx (startOf rows idx) (by
    rcases Nat.lt_or_ge idx rows.length with hl | hl
    · right
      have := f3 hl
      rw [startOf_succ rows idx rows[idx] (List.getElem?_eq_getElem hl)] at this
      rw [List.drop_eq_getElem_cons hl]
      exact this
    · left; exact List.drop_of_length_le hl) j o
  rw [hb]
  constructor
  · intro i o hm
    obtain ⟨k, h1, h2, h3, _⟩ := (hspec i o).mp hm
    rw [List.length_drop] at h2
    exact ⟨by rw [h3, hdrop, h1], by omega⟩
  · intro i n hn hpos
    rw [hspec]
    have hil : i < rows.length := (List.getElem?_eq_some_iff.mp hn).1
    constructor
    · rintro ⟨k, h1, h2, h3, h4⟩
      subst h1
      refine ⟨n, hn, max start (startOf rows (idx + k)), by omega, by omega, by omega, ?_⟩
      have h5 := f3 (by omega)
      cases k with
      | zero =>
        rw [Nat.add_zero] at hn ⊢
        rw [startOf_succ rows idx n hn] at h5
        omega
      | succ k =>
        have := startOf_mono rows (show idx + 1 ≤ idx + (k + 1) by omega)
        omega
    · rintro ⟨n', h1, r, h2, h3, h4, h5⟩
      rw [hn] at h1
      cases h1
      have hge : idx ≤ i := by
        rcases Nat.lt_or_ge i idx with hc | hc
        · have h6 := startOf_succ rows i n hn
          have h7 := startOf_mono rows (show i + 1 ≤ idx by omega)
          omega
        · exact hc
      refine ⟨i - idx, by omega, by rw [List.length_drop]; omega, ?_, by omega⟩
      rw [hdrop, Nat.add_sub_cancel' hge]

/-- C44: without empty fragments, any search will do: exactly the fragments with a row in the range. -/
theorem C44_no_empty_partial (rows : List Nat) (found : Option Nat) (start stop : Nat) (h : SearchOK rows start found)
    (hne : ∀ n ∈ rows, 0 < n) (hr : start < stop) (i o : Nat) :
    (i, o) ∈ byOffset rows found start stop ↔ Holds rows start stop i ∧ o = startOf rows i := by
  obtain ⟨h1, h2⟩ := C44_by_offset_partial rows found start stop h (by
    intro i e
    subst e
    simp only [SearchOK] at h
    rw [getElem?_offsets] at h ⊢
    split
    · rename_i hl
      rw [if_pos (by omega)] at h
      have hpos := hne _ (List.getElem_mem (show i < rows.length by omega))
      have := startOf_succ rows i _ (List.getElem?_eq_getElem (show i < rows.length by omega))
      simp only [Nat.zero_add, Option.some.injEq] at h
      simp only [Nat.zero_add, ne_eq, Option.some.injEq]
      omega
    · simp) hr
  constructor
  · intro hm
    obtain ⟨e, hi⟩ := h1 i o hm
    subst e
    exact ⟨(h2 i _ (List.getElem?_eq_getElem hi) (hne _ (List.getElem_mem hi))).mp hm, rfl⟩
  · rintro ⟨hh, e⟩
    subst e
    have hh' := hh
    obtain ⟨n, hn, _⟩ := hh
    exact (h2 i n hn (hne n (List.mem_of_getElem? hn))).mpr hh'

example : byOffset [10, 20, 5] none 15 32 = [(1, 10), (2, 30)] := by decide
example : SearchOK [10, 20, 5] 15 none := by simp [SearchOK, offsets]
example : byOffset [10, 20, 5] (some 1) 10 30 = [(1, 10)] := by decide

end Verif.Prefilter
