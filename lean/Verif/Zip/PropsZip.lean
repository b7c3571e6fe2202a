import Verif.Zip.LemmasFixed
import Verif.Zip.LemmasVariable
/-!
# C90: rows are read from full-zip pages as they were written
-/
namespace Verif.Zip
open Verif.Mini

/-- The claim, for values of `bpv` bytes, of which each row has `n` (the dimension of a fixed size list, or else 1): the page can be
written, and any ranges of rows, read in any batches, give the levels and values of these rows. -/
def C90_fixed_width_statement : Prop :=
  ∀ (bpv n k : Nat) (r : Rows (List Nat)), 0 < bpv → 0 < n → RowsOk r → LevelsOk r → (∀ v ∈ valsOf r.rows.flatten, FixedVal bpv v) →
    r.rows.length = n * k → pageSize 4 r < 2 ^ 64 →
    ∃ p, writeFixed r.repDefs (valsOf r.rows.flatten) k = some p ∧
      ∀ (ranges : List (Nat × Nat)) (batches : List Nat), RangesOk k 0 ranges → BatchesOk (selected (List.range k) ranges).length batches →
        readFixed bpv n p ranges batches =
          some ((inBatches (batches.map (· * n)) (selected r.rows (scaled n ranges))).map (expected r))

/-- The claim for strings (null strings are read as empty ones). -/
def C90_strings_statement : Prop :=
  ∀ (r : Rows (List Nat)), RowsOk r → LevelsOk r → (valsOf r.rows.flatten).flatten.length < 2 ^ 32 → pageSize 8 r < 2 ^ 64 →
    ∃ p, writeVariable r.repDefs (valsOf r.rows.flatten) r.rows.length = some p ∧
      ∀ (ranges : List (Nat × Nat)) (batches : List Nat), RangesOk r.rows.length 0 ranges →
        batches.sum ≤ (selected r.rows ranges).length →
        readVariable p ranges batches = some ((inBatches batches (selected r.rows ranges)).map (expectedStrings r))

/-! ### What holds -/

/-- **C90** for values of a fixed width, what can be proved.  What is missing of the claim: `Plain`, that is, pages with definition levels that
are all 0, null or empty lists inside of something nullable, and levels from 256 on. -/
theorem C90_fixed_width_partial (bpv n k : Nat) (r : Rows (List Nat)) (hbpv : 0 < bpv) (hn : 0 < n) (h : RowsOk r) (hl : LevelsOk r)
    (hp : Plain r) (hv : ∀ v ∈ valsOf r.rows.flatten, v.length = bpv) (hk : r.rows.length = n * k) (hsize : pageSize 4 r < 2 ^ 64) :
    ∃ p, writeFixed r.repDefs (valsOf r.rows.flatten) k = some p ∧
      ∀ (ranges : List (Nat × Nat)) (batches : List Nat), RangesOk k 0 ranges → BatchesOk (selected (List.range k) ranges).length batches →
        readFixed bpv n p ranges batches =
          some ((inBatches (batches.map (· * n)) (selected r.rows (scaled n ranges))).map (expected r)) := by
  obtain ⟨p, hw, _⟩ := fixed_pages bpv n k r [] [] hbpv hn h hl hp hv hk hsize trivial ⟨by simp, by simp⟩
  refine ⟨p, hw, ?_⟩
  intro ranges batches hr hb
  obtain ⟨p', hw', hread⟩ := fixed_pages bpv n k r ranges batches hbpv hn h hl hp hv hk hsize hr hb
  rw [hw] at hw'
  cases hw'
  exact hread

/-- **C90** for strings, what can be proved; `Plain` is missing here too. -/
theorem C90_strings_partial (r : Rows (List Nat)) (h : RowsOk r) (hl : LevelsOk r) (hp : Plain r)
    (hv : (valsOf r.rows.flatten).flatten.length < 2 ^ 32) (hsize : pageSize 8 r < 2 ^ 64) :
    ∃ p, writeVariable r.repDefs (valsOf r.rows.flatten) r.rows.length = some p ∧
      ∀ (ranges : List (Nat × Nat)) (batches : List Nat), RangesOk r.rows.length 0 ranges →
        batches.sum ≤ (selected r.rows ranges).length →
        readVariable p ranges batches = some ((inBatches batches (selected r.rows ranges)).map (expectedStrings r)) := by
  obtain ⟨p, hw, _⟩ := string_pages r [] [] h hl hp hv hsize trivial (by simp)
  refine ⟨p, hw, ?_⟩
  intro ranges batches hr hb
  obtain ⟨p', hw', hread⟩ := string_pages r ranges batches h hl hp hv hsize hr hb
  rw [hw] at hw'
  cases hw'
  exact hread

/-! ### Where the claim fails -/

/-- Two values of two bytes, in a column that has a validity bitmap without nulls. -/
def allZero : Rows (List Nat) := ⟨[.nullableItem], true, [[⟨0, 0, some [1, 2]⟩], [⟨0, 0, some [3, 4]⟩]]⟩

/-- **C90**, violated: the writer puts control words of one byte before the values, since there are definition levels, and says in the
page that they have no bits, since all levels are 0; the reader takes the control words for values. -/
theorem C90_zero_levels_misread :
    (writeFixed allZero.repDefs (valsOf allZero.rows.flatten) 2).bind (fun p => readFixed 2 1 p [(0, 2)] [2]) =
      some [⟨none, none, [[0, 1], [2, 0]]⟩] := by
  decide +kernel

/-- Lists `[[1, 2], [3, 4]]`, null and `[[5, 6]]` in a struct that may be null. -/
def nullList : Rows (List Nat) :=
  ⟨[.nullableItem, .nullableList, .nullableItem], true,
    [[⟨1, 0, some [1, 2]⟩, ⟨0, 0, some [3, 4]⟩], [⟨1, 2, none⟩], [⟨1, 0, some [5, 6]⟩]]⟩

/-- **C90**, violated: the reader takes levels up to 2 for those of items, as there are two layers with nulls that are no lists; the writer
put no value there. -/
theorem C90_null_list_in_struct_panics :
    (writeFixed nullList.repDefs (valsOf nullList.rows.flatten) 3).bind (fun p => readFixed 2 1 p [(0, 3)] [3]) = none := by
  decide +kernel

/-- A string in 256 structs that may be null, of which the outermost is. -/
def deep : Rows (List Nat) := ⟨List.replicate 256 .nullableItem, true, [[⟨0, 256, some [7]⟩]]⟩

/-- **C90**, violated: levels of two bytes make the writer panic. -/
theorem C90_deep_levels_panic :
    writeFixed deep.repDefs (valsOf deep.rows.flatten) 1 = none ∧ writeVariable deep.repDefs (valsOf deep.rows.flatten) 1 = none := by
  constructor <;> decide +kernel

theorem allZero_ok : RowsOk allZero ∧ LevelsOk allZero := by
  refine ⟨⟨?_, by simp [allZero], by simp [allZero]⟩, ?_⟩
  · intro row hrow
    simp only [allZero, List.mem_cons, List.not_mem_nil, or_false] at hrow
    rcases hrow with rfl | rfl <;> simp [RowOk, SlotOk, allZero, listDepth, Layer.isList]
  · intro row hrow s hs
    simp only [allZero, List.mem_cons, List.not_mem_nil, or_false] at hrow
    rcases hrow with rfl | rfl <;> (simp only [List.mem_cons, List.not_mem_nil, or_false] at hs; subst hs; exact Nat.zero_le _)

/-- **C90** as it stands does not hold. -/
theorem C90_fixed_width_violated : ¬ C90_fixed_width_statement := by
  intro h
  obtain ⟨p, hw, hr⟩ := h 2 1 2 allZero (by omega) (by omega) allZero_ok.1 allZero_ok.2 (by
    intro v hv
    simp only [allZero, valsOf, List.flatten_cons, List.flatten_nil, List.cons_append, List.nil_append, List.filterMap_cons, List.filterMap_nil,
      List.mem_cons, List.not_mem_nil, or_false] at hv
    rcases hv with rfl | rfl <;> simp [FixedVal]) rfl (by decide)
  have := hr [(0, 2)] [2] (by simp [RangesOk]) (by simp [BatchesOk, selected])
  have h2 := C90_zero_levels_misread
  rw [hw] at h2
  simp only [Option.bind_some] at h2
  rw [this] at h2
  revert h2
  decide

/-- **C90** as it stands does not hold for strings either. -/
theorem C90_strings_violated : ¬ C90_strings_statement := by
  intro h
  obtain ⟨p, hw, _⟩ := h deep (by
    have hd : listDepth deep.layers = 0 := by decide +kernel
    refine ⟨?_, List.cons_ne_nil _ _, show 1 < 2 ^ 64 by omega⟩
    intro row hrow
    have hrow : row = [⟨0, 256, some [7]⟩] := List.mem_singleton.mp hrow
    subst hrow
    refine ⟨hd.symm, by simp, ?_⟩
    intro t ht
    have ht : t = ⟨0, 256, some [7]⟩ := List.mem_singleton.mp ht
    subst ht
    exact ⟨⟨fun _ => Or.inl hd, fun _ => rfl⟩, fun hf => Bool.noConfusion hf, show 0 < 65536 by omega, show 256 < 65536 by omega⟩) (by
    have : ∀ row ∈ deep.rows, ∀ s ∈ row, s.dfn ≤ allLevels deep.layers := by decide +kernel
    exact this) (by decide) (by decide)
  have := C90_deep_levels_panic.2
  rw [show deep.rows.length = 1 from rfl, this] at hw
  cases hw

/-! ### Cases of the proved part -/

/-- Lists of values of two bytes: `[[1, 2], null]`, null, empty and `[[3, 4]]`. -/
def someLists : Rows (List Nat) :=
  ⟨[.nullableItem, .nullableAndEmptyableList], true,
    [[⟨1, 0, some [1, 2]⟩, ⟨0, 1, some [0, 0]⟩], [⟨1, 2, none⟩], [⟨1, 3, none⟩], [⟨1, 0, some [3, 4]⟩]]⟩

theorem someLists_ok : RowsOk someLists ∧ LevelsOk someLists ∧ Plain someLists := by
  refine ⟨⟨?_, by simp [someLists], by simp [someLists]⟩, ?_, by decide, by decide, ?_, ?_⟩
  · intro row hrow
    simp only [someLists, List.mem_cons, List.not_mem_nil, or_false] at hrow
    rcases hrow with rfl | rfl | rfl | rfl <;>
      simp [RowOk, SlotOk, someLists, listDepth, Layer.isList, innerLevels, Layer.defLevels]
  · intro row hrow s hs
    have : ∀ row ∈ someLists.rows, ∀ s ∈ row, s.dfn ≤ allLevels someLists.layers := by decide
    exact this row hrow s hs
  · intro _; exact ⟨[⟨1, 2, none⟩], by simp [someLists], ⟨1, 2, none⟩, by simp, by decide⟩
  · have : ∀ row ∈ someLists.rows, ∀ s ∈ row, s.val = none → itemLevels someLists.layers < s.dfn := by decide
    exact this

/-- The hypotheses of `C90_fixed_width_partial` are met by lists with null elements, null lists and empty lists; two ranges of rows are read
in two batches, of which the first has rows of both ranges. -/
theorem C90_fixed_width_nonvacuous :
    ∃ p, writeFixed someLists.repDefs (valsOf someLists.rows.flatten) 4 = some p ∧
      readFixed 2 1 p [(0, 2), (3, 4)] [1, 2] =
        some [⟨some [1, 0], some [0, 1], [[1, 2], [0, 0]]⟩, ⟨some [1, 1], some [2, 0], [[3, 4]]⟩] := by
  obtain ⟨h1, h2, h3⟩ := someLists_ok
  obtain ⟨p, hw, hr⟩ := C90_fixed_width_partial 2 1 4 someLists (by omega) (by omega) h1 h2 h3 (by decide) rfl (by decide)
  refine ⟨p, hw, ?_⟩
  rw [hr _ _ (by simp [RangesOk]) (by simp [BatchesOk, selected])]
  decide

/-- The same with strings; the null element is read as the empty string. -/
theorem C90_strings_nonvacuous :
    ∃ p, writeVariable someLists.repDefs (valsOf someLists.rows.flatten) 4 = some p ∧
      readVariable p [(0, 2), (3, 4)] [1, 2] =
        some [⟨some [1, 0], some [0, 1], [[1, 2], []]⟩, ⟨some [1, 1], some [2, 0], [[3, 4]]⟩] := by
  obtain ⟨h1, h2, h3⟩ := someLists_ok
  obtain ⟨p, hw, hr⟩ := C90_strings_partial someLists h1 h2 h3 (by decide) (by decide)
  refine ⟨p, hw, ?_⟩
  rw [hr _ _ (by simp [RangesOk, someLists]) (by simp [selected, someLists])]
  decide

end Verif.Zip
