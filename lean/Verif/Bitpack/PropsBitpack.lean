import Verif.Bitpack.Loops

/-! # C120: reading ranges of bitpacked pages -/

namespace Verif.Bitpack

/-- Reading ranges of a page in batches gives the numbers at these rows, whatever the sizes of the batches. -/
def C120_statement : Prop :=
  ∀ (b u : Nat) (signed : Bool) (xs : List Int) (pad : List Bool) (ranges : List (Nat × Nat)) (batches : List Nat),
    0 < b → b ≤ u → u % 8 = 0 → (∀ x ∈ xs, FitsBits b signed x) → (pageOf b xs pad).length % 8 = 0 → (∀ r ∈ ranges, r.1 ≤ r.2 ∧ r.2 ≤ xs.length) →
    batches.foldl (· + ·) 0 = (rowsOf xs ranges).length →
    (read b u signed (pageOf b xs pad) ranges batches).map (·.map (intOf signed)) = some (rowsOf xs ranges)

/-- If every batch starts at the start of a range or lies in one range, the numbers come out; missing: batches that start inside a range and go on to the next one. -/
theorem C120_read_partial (b u : Nat) (signed : Bool) (xs : List Int) (pad : List Bool) (ranges : List (Nat × Nat)) (batches : List Nat) (hb : 0 < b) (hbu : b ≤ u) (hu : u % 8 = 0)
    (hfit : ∀ x ∈ xs, FitsBits b signed x) (h8 : (pageOf b xs pad).length % 8 = 0) (hr : ∀ r ∈ ranges, r.1 ≤ r.2 ∧ r.2 ≤ xs.length)
    (hsum : batches.sum ≤ (rowsOf xs ranges).length) (hclean : ∀ before n after, batches = before ++ n :: after → Clean ranges before.sum n) :
    (read b u signed (pageOf b xs pad) ranges batches).map (·.map (intOf signed)) = some ((rowsOf xs ranges).take batches.sum) := by
  have hv : ∀ v ∈ xs.map (intBits b), v.length = b := by
    intro v hv
    obtain ⟨x, _, rfl⟩ := List.mem_map.mp hv
    exact natBits_length _ _
  have hr' : ∀ r ∈ ranges, r.1 ≤ r.2 ∧ r.2 ≤ (xs.map (intBits b)).length := by simpa using hr
  have hl := rowsOf_length b hb (xs.map (intBits b)) pad hv h8 xs ranges hr
  have h := drain_clean b u hb hbu hu signed (xs.map (intBits b)) pad hv h8 ranges hr' batches 0 (by omega) (by simpa using hclean)
  unfold read pageOf
  rw [h, rowsOf_map]
  simp only [List.drop_zero, Option.map_some, ← List.map_take, List.map_map, Option.some.injEq]
  conv => rhs; rw [← List.map_id ((rowsOf xs ranges).take batches.sum)]
  apply List.map_congr_left
  intro x hx
  have hx' : x ∈ xs := mem_rowsOf xs ranges x (List.mem_of_mem_take hx)
  simp only [Function.comp_apply, id_eq]
  rw [intOf_widen, intOf_intBits b hb signed x (hfit x hx')]
  intro h0
  have : (intBits b x).length = b := natBits_length _ _
  rw [h0] at this
  simp at this
  omega

/-- One range (a scan, or a take of neighbours) is read right in batches of any sizes. -/
theorem C120_one_range_partial (b u : Nat) (signed : Bool) (xs : List Int) (pad : List Bool) (r : Nat × Nat) (batches : List Nat) (hb : 0 < b) (hbu : b ≤ u) (hu : u % 8 = 0)
    (hfit : ∀ x ∈ xs, FitsBits b signed x) (h8 : (pageOf b xs pad).length % 8 = 0) (hr : r.1 ≤ r.2 ∧ r.2 ≤ xs.length) (hsum : batches.sum = r.2 - r.1) :
    (read b u signed (pageOf b xs pad) [r] batches).map (·.map (intOf signed)) = some ((xs.drop r.1).take (r.2 - r.1)) := by
  have hrows : rowsOf xs [r] = (xs.drop r.1).take (r.2 - r.1) := by simp [rowsOf]
  have hlen : ((xs.drop r.1).take (r.2 - r.1)).length = r.2 - r.1 := by
    rw [List.length_take, List.length_drop]
    omega
  rw [C120_read_partial b u signed xs pad [r] batches hb hbu hu hfit h8 (by simpa using hr) (by rw [hrows, hlen]; omega) ?_, hrows, hsum, List.take_of_length_le (by omega)]
  intro before n after h
  refine ⟨[], r, [], before.sum, rfl, by simp [count], Or.inr ?_⟩
  rw [h, List.sum_append, List.sum_cons] at hsum
  omega

/-- All rows of any ranges (a take of any rows) in one batch are read right. -/
theorem C120_one_batch_partial (b u : Nat) (signed : Bool) (xs : List Int) (pad : List Bool) (r : Nat × Nat) (ranges : List (Nat × Nat)) (hb : 0 < b) (hbu : b ≤ u) (hu : u % 8 = 0)
    (hfit : ∀ x ∈ xs, FitsBits b signed x) (h8 : (pageOf b xs pad).length % 8 = 0) (hr : ∀ r' ∈ r :: ranges, r'.1 ≤ r'.2 ∧ r'.2 ≤ xs.length) :
    (read b u signed (pageOf b xs pad) (r :: ranges) [(rowsOf xs (r :: ranges)).length]).map (·.map (intOf signed)) = some (rowsOf xs (r :: ranges)) := by
  rw [C120_read_partial b u signed xs pad (r :: ranges) [(rowsOf xs (r :: ranges)).length] hb hbu hu hfit h8 hr (by simp) ?_]
  · simp
  · intro before n after h
    cases before with
    | nil => exact ⟨[], r, ranges, 0, rfl, by simp [count], Or.inl rfl⟩
    | cons x before =>
      simp only [List.cons_append, List.cons.injEq] at h
      exact absurd h.2 (by simp)

/-- A take of single rows, in any order and with repetitions, is read right in batches of any sizes. -/
theorem C120_take_partial (b u : Nat) (signed : Bool) (xs : List Int) (pad : List Bool) (indices : List Nat) (batches : List Nat) (hb : 0 < b) (hbu : b ≤ u) (hu : u % 8 = 0)
    (hfit : ∀ x ∈ xs, FitsBits b signed x) (h8 : (pageOf b xs pad).length % 8 = 0) (hi : ∀ i ∈ indices, i < xs.length) (hne : indices ≠ [])
    (hsum : batches.sum = indices.length) :
    (read b u signed (pageOf b xs pad) (indices.map (fun i => (i, i + 1))) batches).map (·.map (intOf signed)) = some (indices.map (fun i => xs.getD i 0)) := by
  have hcount : ∀ l : List Nat, count (l.map (fun i => (i, i + 1))) = l.length := by
    intro l
    induction l with
    | nil => rfl
    | cons i l ih =>
      simp only [count, List.map_cons, List.sum_cons, List.length_cons] at ih ⊢
      omega
  have hrows : ∀ l : List Nat, (∀ i ∈ l, i < xs.length) → rowsOf xs (l.map (fun i => (i, i + 1))) = l.map (fun i => xs.getD i 0) := by
    intro l hl
    induction l with
    | nil => rfl
    | cons i l ih =>
      have h1 := hl i List.mem_cons_self
      have h2 := ih (fun i hi => hl i (List.mem_cons_of_mem _ hi))
      unfold rowsOf at h2 ⊢
      rw [List.map_cons, List.flatMap_cons, h2, List.map_cons]
      simp only [Nat.add_sub_cancel_left]
      rw [List.drop_eq_getElem_cons h1, List.take_succ_cons, List.take_zero, List.getD_eq_getElem?_getD, List.getElem?_eq_getElem h1]
      rfl
  rw [C120_read_partial b u signed xs pad _ batches hb hbu hu hfit h8 ?_ ?_ ?_, hrows indices hi, hsum, List.take_of_length_le (by simp)]
  · intro r hr
    obtain ⟨i, him, rfl⟩ := List.mem_map.mp hr
    exact ⟨by simp, hi i him⟩
  · rw [hrows indices hi, List.length_map]
    omega
  · intro before n after h
    rw [h, List.sum_append, List.sum_cons] at hsum
    by_cases hlt : before.sum < indices.length
    · refine ⟨(indices.take before.sum).map (fun i => (i, i + 1)), (indices[before.sum], indices[before.sum] + 1), (indices.drop (before.sum + 1)).map (fun i => (i, i + 1)),
        0, ?_, ?_, Or.inl rfl⟩
      · rw [← List.map_cons (f := fun i => (i, i + 1)), ← List.drop_eq_getElem_cons hlt, ← List.map_append, List.take_append_drop]
      · rw [hcount, List.length_take]
        omega
    · have hpos : 0 < indices.length := List.length_pos_iff.mpr hne
      refine ⟨(indices.dropLast).map (fun i => (i, i + 1)), (indices.getLast hne, indices.getLast hne + 1), [], 1, ?_, ?_, Or.inr (by omega)⟩
      · rw [← List.map_singleton (f := fun i => (i, i + 1)), ← List.map_append, List.dropLast_concat_getLast]
      · rw [hcount, List.length_dropLast]
        omega

/-- What comes out of a batch that starts `k` rows inside a range and takes all the rest of it and all of the next one: `k` rows of the next one are skipped as well,
and zeros come at the end. -/
theorem C120_skipped_again (b u : Nat) (signed : Bool) (xs : List Int) (pad : List Bool) (r r' : Nat × Nat) (k : Nat) (hb : 0 < b) (hbu : b ≤ u) (hu : u % 8 = 0)
    (h8 : (pageOf b xs pad).length % 8 = 0) (hr : r.1 ≤ r.2 ∧ r.2 ≤ xs.length) (hr' : r'.1 ≤ r'.2 ∧ r'.2 ≤ xs.length) (hk : k < r.2 - r.1) (hk' : k < r'.2 - r'.1) :
    decode b u signed ([r, r'].map (scheduleRange b (pageOf b xs pad))) k (r.2 - r.1 - k + (r'.2 - r'.1)) =
      some ((((rowsOf xs [r]).drop k ++ (rowsOf xs [r']).drop k).map (fun x => widen u signed (intBits b x))) ++ List.replicate k (List.replicate u false)) := by
  have hv : ∀ v ∈ xs.map (intBits b), v.length = b := by
    intro v hv
    obtain ⟨x, _, rfl⟩ := List.mem_map.mp hv
    exact natBits_length _ _
  have h1 := rowsOf_length b hb (xs.map (intBits b)) pad hv h8 xs [r] (by simpa using hr)
  have h2 := rowsOf_length b hb (xs.map (intBits b)) pad hv h8 xs [r'] (by simpa using hr')
  have hc1 : count [r] = r.2 - r.1 := by simp [count]
  have hc2 : count [r'] = r'.2 - r'.1 := by simp [count]
  have hl := loop_some b u hb hbu hu signed (xs.map (intBits b)) pad hv h8 r (by simpa using hr) [scheduleRange b (pageOf b xs pad) r'] k (r.2 - r.1 - k + (r'.2 - r'.1)) hk
  have hl' := loop_some b u hb hbu hu signed (xs.map (intBits b)) pad hv h8 r' (by simpa using hr') [] k (r'.2 - r'.1) hk'
  unfold decode
  simp only [List.map_cons, List.map_nil]
  unfold pageOf at *
  rw [hl, Nat.add_sub_cancel_left, hl']
  simp only [decodeLoop, Option.map_some, List.append_nil, rowsOf_map, ← List.map_drop, ← List.map_take, List.map_map]
  rw [List.take_of_length_le (by rw [List.length_drop]; omega), List.take_of_length_le (by rw [List.length_drop]; omega)]
  simp only [List.length_append, List.length_map, List.length_drop, h1, h2, hc1, hc2, Option.some.injEq, List.map_append]
  rw [show r.2 - r.1 - k + (r'.2 - r'.1) - (r.2 - r.1 - k + (r'.2 - r'.1 - k)) = k by omega]
  rfl

/-- Rows 0, 1, 4 and 5 of a page of numbers of three bits, in batches of 1 and 3: row 4 is lost, and a zero comes at the end. -/
theorem C120_skipped_again_violated :
    (read 3 8 false (pageOf 3 [1, 2, 3, 4, 5, 6] [false, false, false, false, false, false]) [(0, 2), (4, 6)] [1, 3]).map (·.map (intOf false)) = some [1, 2, 6, 0] ∧
      rowsOf [1, 2, 3, 4, 5, 6] [(0, 2), (4, 6)] = [1, 2, 5, 6] := by
  decide

theorem C120_violated : ¬ C120_statement := by
  intro h
  have h1 := h 3 8 false [1, 2, 3, 4, 5, 6] [false, false, false, false, false, false] [(0, 2), (4, 6)] [1, 3] (by decide) (by decide) (by decide) (by unfold FitsBits; decide) (by decide) (by decide) (by decide)
  exact absurd h1 (by decide)

/-- Signed numbers of five bits; a range that starts and ends inside bytes, two batches, and two ranges with a batch for each. -/
theorem C120_nonvacuous :
    (∀ x ∈ ([-16, 15, -1, 0, 7, -8, 3] : List Int), FitsBits 5 true x) ∧ (pageOf 5 [-16, 15, -1, 0, 7, -8, 3] [false, false, false, false, false]).length % 8 = 0 ∧
      (read 5 16 true (pageOf 5 [-16, 15, -1, 0, 7, -8, 3] [false, false, false, false, false]) [(1, 6)] [2, 3]).map (·.map (intOf true)) = some [15, -1, 0, 7, -8] ∧
      (read 5 16 true (pageOf 5 [-16, 15, -1, 0, 7, -8, 3] [false, false, false, false, false]) [(0, 2), (5, 7)] [2, 2]).map (·.map (intOf true)) = some [-16, 15, -8, 3] ∧
      Clean [(0, 2), (5, 7)] 2 2 :=
  ⟨by unfold FitsBits; decide, by decide, by decide, by decide, ⟨[(0, 2)], (5, 7), [], 0, rfl, rfl, Or.inl rfl⟩⟩

end Verif.Bitpack
