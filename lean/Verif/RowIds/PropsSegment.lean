import Verif.RowIds.SegmentLemmas2

/-!
# C10 row id segments

`Seg.WF` is the invariant of segments; the theorems below show that every constructor and every
edit establishes it, so it holds of all segments built by the code.  `Seg.Small l`: ids below
`2^64 - 1`, spread below `2^61` (outside, the arithmetic of `from_stats_and_sequence` overflows).
-/
namespace Verif.RowIds
namespace Seg

/-- The ids `vals` are read back completely through every access path of `sg`. -/
def Reads (sg : Seg) (l : List Nat) : Prop :=
  sg.iter = l ∧ sg.len = l.length ∧ (∀ i, sg.get i = l[i]?) ∧
  (∀ v i, sg.position v = some (some i) ↔ l[i]? = some v) ∧
  (∀ v, sg.position v = some none ↔ v ∉ l)

theorem reads_of_wf (sg : Seg) (h : sg.WF) : sg.Reads sg.iter := by
  refine ⟨rfl, len_eq sg h, get_eq sg h, ?_, ?_⟩
  · intro v i
    rw [position_eq sg h]
    constructor
    · intro e
      split at e
      · rename_i hv; cases e; exact getElem?_idxOf_mem hv
      · cases e
    · intro e
      have hv : v ∈ sg.iter := List.mem_of_getElem? e
      rw [if_pos hv]
      obtain ⟨hi, e'⟩ := List.getElem?_eq_some_iff.1 e
      have hnd := iter_nodup sg h
      have : sg.iter.idxOf v = i := by
        rw [← e']; exact hnd.idxOf_getElem i hi
      rw [this]
  · intro v
    rw [position_eq sg h]
    by_cases hv : v ∈ sg.iter <;> simp [hv]

/-- C10, full statement: any list of distinct `u64` ids. -/
def C10_statement : Prop :=
  ∀ l : List Nat, l.Nodup → (∀ x ∈ l, x < U64) → ∃ sg, fromSlice l = some sg ∧ sg.Reads l

/-- C10 fails for the id `u64::MAX`: `max + 1` overflows (segment.rs:174). -/
theorem C10_from_slice_violated : ¬ C10_statement := by
  intro h
  obtain ⟨sg, h1, _⟩ := h [U64 - 1] (by simp) (by simp)
  have : fromSlice [U64 - 1] = none := by decide
  rw [this] at h1; cases h1

/-- C10: a segment built from any list of distinct ids lists them in order, positional access and
reverse lookup are inverse.  Missing from the full statement: ids `u64::MAX` and spreads of `2^61`
or more. -/
theorem C10_from_slice_partial (l : List Nat) (hn : l.Nodup) (hs : Small l) :
    ∃ sg, fromSlice l = some sg ∧ sg.WF ∧ sg.Reads l := by
  obtain ⟨sg, h1, h2, h3⟩ := fromStats_computeStats l hn hs
  exact ⟨sg, h1, h2, h3 ▸ reads_of_wf sg h2⟩

/-- C10: on every well-formed segment all access paths agree with iteration. -/
theorem C10_access (sg : Seg) (h : sg.WF) : sg.Reads sg.iter := reads_of_wf sg h

/-- C10: deleting ids (given in order of appearance) leaves exactly the other ids in order. -/
theorem C10_delete (sg : Seg) (h : sg.WF) (hs : Small sg.iter) (vals : List Nat) (hv : vals.Sublist sg.iter) :
    ∃ sg', sg.delete vals = some sg' ∧ sg'.WF ∧ sg'.Reads (sg.iter.filter (fun x => !vals.contains x)) := by
  unfold delete
  rw [skipMatching_spec _ _ (iter_nodup sg h) hv]
  obtain ⟨sg', h1, h2, h3⟩ := fromStats_computeStats (sg.iter.filter (fun x => !vals.contains x))
    ((iter_nodup sg h).sublist List.filter_sublist) (hs.subset (fun x hx => (List.mem_filter.1 hx).1))
  exact ⟨sg', h1, h2, h3 ▸ reads_of_wf sg' h2⟩

/-- C10: masking positions leaves exactly the ids at the other positions, in order. -/
theorem C10_mask (sg : Seg) (h : sg.WF) (hs : Small sg.iter) (ps : List Nat) (hinc : ps.Pairwise (· < ·))
    (hb : ∀ p ∈ ps, p < sg.len) (hlen : sg.len ≤ 2 ^ 32) :
    ∃ sg', sg.mask ps = some sg' ∧ sg'.WF ∧
      sg'.Reads (((List.range sg.len).filter (fun i => !ps.contains i)).filterMap (fun i => sg.iter[i]?)) := by
  have hl := len_eq sg h
  obtain ⟨sg', h1, h2, h3⟩ := mask_eq sg h hs ps hinc (by rw [← hl]; exact hb) (by omega)
  refine ⟨sg', h1, h2, ?_⟩
  have : sg'.iter = ((List.range sg.len).filter (fun i => !ps.contains i)).filterMap (fun i => sg.iter[i]?) := by
    rw [h3, hl]; rfl
  exact this ▸ reads_of_wf sg' h2

/-- C10: the min/max of a segment enclose all its ids, and are not needed for an empty range. -/
theorem C10_bounds (sg : Seg) (h : sg.WF) (hne : sg.iter ≠ []) :
    ∃ lo hi, sg.bounds = some (some (lo, hi)) ∧ lo ≤ hi ∧ ∀ v ∈ sg.iter, lo ≤ v ∧ v ≤ hi := by
  cases sg with
  | range s e =>
    have : s < e := by
      simp only [iter] at hne
      rcases Nat.lt_or_ge s e with h | h
      · exact h
      · rw [show e - s = 0 by omega] at hne; exact absurd rfl hne
    refine ⟨s, e - 1, by simp only [bounds]; rw [if_neg (by omega)], by omega, ?_⟩
    intro v hv
    simp only [iter, List.mem_range'_1] at hv
    omega
  | holes s e hh =>
    obtain ⟨h1, _⟩ := h
    refine ⟨s, e - 1, by simp only [bounds]; rw [if_neg (by omega)], by omega, ?_⟩
    intro v hv
    simp only [iter, List.mem_filter, List.mem_range'_1] at hv
    omega
  | bitmap s e b =>
    obtain ⟨h1, _⟩ := h
    refine ⟨s, e - 1, by simp only [bounds]; rw [if_neg (by omega)], by omega, ?_⟩
    intro v hv
    simp only [iter, List.mem_filter, List.mem_range'_1] at hv
    omega
  | sorted a =>
    have hne' : a.iter ≠ [] := hne
    refine ⟨a.iter.head hne', a.iter.getLast hne', ?_, ?_, ?_⟩
    · simp only [bounds, Enc.first_eq, Enc.last_eq, List.head?_eq_some_head hne', List.getLast?_eq_some_getLast hne']
    · exact (inc_bounds h.2 hne' _ (List.getLast_mem hne')).1
    · intro v hv; exact inc_bounds h.2 hne' v hv
  | array a =>
    have hne' : a.iter ≠ [] := hne
    have hmin : ∃ m, a.iter.min? = some m := by
      cases hm : a.iter.min? with
      | none => exact absurd (List.min?_eq_none_iff.1 hm) hne'
      | some m => exact ⟨m, rfl⟩
    have hmax : ∃ m, a.iter.max? = some m := by
      cases hm : a.iter.max? with
      | none => exact absurd (List.max?_eq_none_iff.1 hm) hne'
      | some m => exact ⟨m, rfl⟩
    obtain ⟨m, hm⟩ := hmin
    obtain ⟨M, hM⟩ := hmax
    have a1 := List.min?_eq_some_iff.1 hm
    have a2 := List.max?_eq_some_iff.1 hM
    refine ⟨m, M, ?_, a2.2 _ a1.1, fun v hv => ⟨a1.2 v hv, a2.2 v hv⟩⟩
    simp only [bounds, Enc.min_eq a h.1, Enc.max_eq, hm, hM]

/-- Non-trivial cases: the five representations are all produced. -/
example : fromSlice [4, 5, 6] = some (range 4 7) := by decide
example : ∃ b, fromSlice [1, 2, 4, 5, 7, 8, 9, 10, 12] = some (bitmap 1 13 b) := ⟨_, rfl⟩
example : fromSlice [0, 90000] = some (sorted (.u32 0 [0, 90000])) := by decide +kernel
example : fromSlice [3, 1, 2] = some (array (.u16 1 [2, 0, 1])) := by decide
example : Small [3, 1, 2] := by refine ⟨?_, ?_⟩ <;> simp
example : (fromSlice [3, 1, 2]).bind (fun s => s.mask [0, 2]) = some (array (.u16 1 [0])) := by decide
example : (range 0 40).mask [3] = some (holes 0 40 (.u16 3 [0])) := by decide +kernel
example : ([3, 2] : List Nat).Sublist [3, 1, 2] := by decide

end Seg
end Verif.RowIds
