import Verif.Sq.Lemmas
import Verif.Pq.PropsMaintain
/-!
# C110: an optimization of scalar-quantized indices, which merges partitions and new rows, leaves the partition as if built of all rows
-/
namespace Verif.Sq
open Verif.Pq (takeVectors)

/-- C110: merging partitions and new rows gives the partition of all rows, less those that were deleted.  The partitions are of the same bounds. -/
def C110_statement : Prop :=
  ∀ (norm : List Int → List Int) (b : Bounds) (m : Metric) (dim : Nat) (dataset : Nat → Option (List Int)) (R : List (List (Nat × List Int))) (rows : List (Nat × List Int))
    (olds : List Storage), b.start < b.stop → (∀ v, (norm v).length = v.length) → (∀ l ∈ R, ∀ r ∈ l, r.2.length = dim) → (∀ r ∈ rows, r.2.length = dim) →
    (∀ l ∈ R, ∀ r ∈ l, dataset r.1 = some r.2 ∨ dataset r.1 = none) → R.mapM (buildPart norm b m dim) = some olds →
    mergePart norm b m dim dataset olds rows = buildPart norm b m dim (R.flatten.filter (fun r => (dataset r.1).isSome) ++ rows)

theorem prepare_rows (norm : List Int → List Int) {m : Metric} (hm : m ≠ .cosine) (l : List (Nat × List Int)) : l.map (fun r => (r.1, prepare norm m r.2)) = l := by
  conv => rhs; rw [← List.map_id l]
  apply List.map_congr_left
  intro r _
  unfold prepare
  rw [if_neg hm]
  rfl

theorem buildPart_eq (norm : List Int → List Int) {b : Bounds} (hb : b.start < b.stop) {m : Metric} (hm : m ≠ .cosine) {dim : Nat} {rows : List (Nat × List Int)}
    (h : Sized dim rows) : buildPart norm b m dim rows = some (stored b m dim rows) := by
  unfold buildPart
  rw [prepare_rows norm hm]
  exact build_eq hb m h

theorem oldRows_eq (norm : List Int → List Int) {b : Bounds} (hb : b.start < b.stop) {m : Metric} (hm : m ≠ .cosine) {dim : Nat} {dataset : Nat → Option (List Int)} :
    ∀ (R : List (List (Nat × List Int))), (∀ l ∈ R, Sized dim l) → (∀ l ∈ R, Verif.Pq.Live dataset l) →
      ∃ olds, R.mapM (buildPart norm b m dim) = some olds ∧ oldRows dataset olds = some R.flatten
  | [], _, _ => ⟨[], rfl, rfl⟩
  | l :: R, h, hl => by
    obtain ⟨olds, o1, o2⟩ := oldRows_eq norm hb hm R (fun x hx => h x (List.mem_cons_of_mem _ hx)) (fun x hx => hl x (List.mem_cons_of_mem _ hx))
    refine ⟨stored b m dim l :: olds, ?_, ?_⟩
    · rw [List.mapM_cons, buildPart_eq norm hb hm (h l List.mem_cons_self), o1]
      rfl
    · unfold oldRows
      rw [show (stored b m dim l).rowIds = l.map Prod.fst from rfl, Verif.Pq.takeVectors_eq (hl l List.mem_cons_self), o2]
      rfl

/-- C110 in part: for L2 and dot, if no row was deleted. -/
theorem C110_merge_partial (norm : List Int → List Int) (b : Bounds) (m : Metric) (dim : Nat) (dataset : Nat → Option (List Int)) (R : List (List (Nat × List Int)))
    (rows : List (Nat × List Int)) (hb : b.start < b.stop) (hm : m ≠ .cosine) (hR : ∀ l ∈ R, ∀ r ∈ l, r.2.length = dim) (h : ∀ r ∈ rows, r.2.length = dim)
    (hl : ∀ l ∈ R, ∀ r ∈ l, dataset r.1 = some r.2) :
    ∃ olds, R.mapM (buildPart norm b m dim) = some olds ∧ mergePart norm b m dim dataset olds rows = buildPart norm b m dim (R.flatten ++ rows) ∧
      ∀ (query : List Int) (j : Nat) (r : Nat × List Int), (R.flatten ++ rows)[j]? = some r →
        ∃ s, mergePart norm b m dim dataset olds rows = some s ∧ s.rowIds[j]? = some r.1 ∧
          ∃ s', buildPart norm b m dim [r] = some s' ∧ (s'.distance norm query 0).isSome ∧ s.distance norm query j = s'.distance norm query 0 := by
  obtain ⟨olds, o1, o2⟩ := oldRows_eq norm hb hm R hR hl
  have hs : Sized dim (R.flatten ++ rows) := by
    intro r hr
    rcases List.mem_append.1 hr with hr | hr
    · obtain ⟨l, hl, hr⟩ := List.mem_flatten.1 hr
      exact hR l hl r hr
    · exact h r hr
  have hmerge : mergePart norm b m dim dataset olds rows = some (stored b m dim (R.flatten ++ rows)) := by
    unfold mergePart
    rw [o2]
    simp only [prepare_rows norm hm]
    exact build_eq hb m hs
  refine ⟨olds, o1, ?_, ?_⟩
  · rw [hmerge, buildPart_eq norm hb hm hs]
  · intro query j r hj
    refine ⟨_, hmerge, ?_, ?_⟩
    · show ((R.flatten ++ rows).map Prod.fst)[j]? = _
      rw [List.getElem?_map, hj]
      rfl
    · have h1 : Sized dim [r] := by
        intro x hx
        simp only [List.mem_singleton] at hx
        subst hx
        exact hs _ (List.mem_of_getElem? hj)
      refine ⟨_, buildPart_eq norm hb hm h1, ?_, ?_⟩
      · rw [distance_eq hb h1 norm query (j := 0) rfl]; rfl
      · rw [distance_eq hb hs norm query hj, distance_eq hb h1 norm query (j := 0) rfl]

/-- Normalization of vectors of length 8 to the length 4 (which is one, in units of 1/4). -/
def scaled (v : List Int) : List Int := v.map (fun x => x / 2)

/-- For cosine, the vectors of rows that were in the index are quantized as they are in the dataset, not normalized: a row at distance 0 to the query is at
another distance after the merge, without any new row. -/
theorem C110_cosine_violated : ∃ (dataset : Nat → Option (List Int)), dataset 7 = some [8, 0] ∧ dataset 8 = some [0, 8] ∧
    (buildPart scaled ⟨0, 8⟩ .cosine 2 [(7, [8, 0]), (8, [0, 8])]).bind (fun s => s.distance scaled [8, 0] 0) = some 0 ∧
    ((buildPart scaled ⟨0, 8⟩ .cosine 2 [(7, [8, 0]), (8, [0, 8])]).bind (fun s => mergePart scaled ⟨0, 8⟩ .cosine 2 dataset [s] [])).bind (fun s => s.distance scaled [8, 0] 0) =
      some (127 * 127 * 64) := by
  refine ⟨fun id => if id = 7 then some [8, 0] else if id = 8 then some [0, 8] else none, rfl, rfl, by decide +kernel, by decide +kernel⟩

theorem prepared_sized {norm : List Int → List Int} (hn : ∀ v, (norm v).length = v.length) (m : Metric) {dim : Nat} {rows : List (Nat × List Int)} (h : Sized dim rows) :
    Sized dim (rows.map (fun r => (r.1, prepare norm m r.2))) := by
  intro x hx
  obtain ⟨r, hr, rfl⟩ := List.mem_map.1 hx
  simp only [prepare]
  split
  · rw [hn, h r hr]
  · exact h r hr

theorem oldRows_any {norm : List Int → List Int} (hn : ∀ v, (norm v).length = v.length) {b : Bounds} (hb : b.start < b.stop) (m : Metric) {dim : Nat}
    {dataset : Nat → Option (List Int)} :
    ∀ (R : List (List (Nat × List Int))), (∀ l ∈ R, Sized dim l) → (∀ l ∈ R, Verif.Pq.Live dataset l) →
      ∃ olds, R.mapM (buildPart norm b m dim) = some olds ∧ oldRows dataset olds = some R.flatten
  | [], _, _ => ⟨[], rfl, rfl⟩
  | l :: R, h, hl => by
    obtain ⟨olds, o1, o2⟩ := oldRows_any hn hb m R (fun x hx => h x (List.mem_cons_of_mem _ hx)) (fun x hx => hl x (List.mem_cons_of_mem _ hx))
    refine ⟨stored b m dim (l.map (fun r => (r.1, prepare norm m r.2))) :: olds, ?_, ?_⟩
    · rw [List.mapM_cons, show buildPart norm b m dim l = some _ from build_eq hb m (prepared_sized hn m (h l List.mem_cons_self)), o1]
      rfl
    · unfold oldRows
      rw [show (stored b m dim (l.map (fun r => (r.1, prepare norm m r.2)))).rowIds = l.map Prod.fst from by simp [stored],
        Verif.Pq.takeVectors_eq (hl l List.mem_cons_self), o2]
      rfl

/-- C110 in part: for all metrics, cosine too, the new rows of a merge are after the old ones and at the distances that they have in a partition of their own. -/
theorem C110_new_rows_partial (norm : List Int → List Int) (b : Bounds) (m : Metric) (dim : Nat) (dataset : Nat → Option (List Int)) (R : List (List (Nat × List Int)))
    (rows : List (Nat × List Int)) (hb : b.start < b.stop) (hn : ∀ v, (norm v).length = v.length) (hR : ∀ l ∈ R, ∀ r ∈ l, r.2.length = dim) (h : ∀ r ∈ rows, r.2.length = dim)
    (hl : ∀ l ∈ R, ∀ r ∈ l, dataset r.1 = some r.2) :
    ∃ olds s, R.mapM (buildPart norm b m dim) = some olds ∧ mergePart norm b m dim dataset olds rows = some s ∧
      s.rowIds = (R.flatten ++ rows).map Prod.fst ∧
      ∀ (query : List Int) (j : Nat) (r : Nat × List Int), rows[j]? = some r →
        ∃ s', buildPart norm b m dim [r] = some s' ∧ (s'.distance norm query 0).isSome ∧ s.distance norm query (R.flatten.length + j) = s'.distance norm query 0 := by
  obtain ⟨olds, o1, o2⟩ := oldRows_any hn hb m R hR hl
  have hs : Sized dim (R.flatten ++ rows.map (fun r => (r.1, prepare norm m r.2))) := by
    intro r hr
    rcases List.mem_append.1 hr with hr | hr
    · obtain ⟨l, hl, hr⟩ := List.mem_flatten.1 hr
      exact hR l hl r hr
    · exact prepared_sized hn m h r hr
  refine ⟨olds, stored b m dim (R.flatten ++ rows.map (fun r => (r.1, prepare norm m r.2))), o1, ?_, ?_, ?_⟩
  · unfold mergePart
    rw [o2]
    exact build_eq hb m hs
  · simp [stored]
  · intro query j r hj
    have h1 : Sized dim [r] := by
      intro x hx
      simp only [List.mem_singleton] at hx
      subst hx
      exact h _ (List.mem_of_getElem? hj)
    have h2 := prepared_sized hn m h1
    refine ⟨_, build_eq hb m h2, ?_, ?_⟩
    · rw [distance_eq hb h2 norm query (j := 0) rfl]; rfl
    · rw [distance_eq hb h2 norm query (j := 0) rfl]
      rw [distance_eq hb hs norm query (j := R.flatten.length + j) (r := (r.1, prepare norm m r.2))]
      rw [List.getElem?_append_right (by omega), Nat.add_sub_cancel_left, List.getElem?_map, hj]
      rfl

/-- Merging fails if a row of the index was deleted. -/
theorem C110_deleted_violated (norm : List Int → List Int) (b : Bounds) (m : Metric) (dim : Nat) (dataset : Nat → Option (List Int)) (l rows : List (Nat × List Int))
    (s : Storage) (hs : buildPart norm b m dim l = some s) (r : Nat × List Int) (hr : r ∈ l) (hd : dataset r.1 = none) : mergePart norm b m dim dataset [s] rows = none := by
  have hids : s.rowIds = l.map Prod.fst := by
    unfold buildPart Storage.build at hs
    split at hs
    · simp at hs
    · split at hs
      · obtain rfl := Option.some.inj hs
        simp
      · simp at hs
  have hlt : ∀ (ids : List Nat), r.1 ∈ ids → (ids.filterMap dataset).length < ids.length := by
    intro ids
    induction ids with
    | nil => intro h; simp at h
    | cons i ids ih =>
      intro hm
      rw [List.filterMap_cons]
      by_cases hi : r.1 = i
      · subst hi
        rw [hd]
        have := List.length_filterMap_le dataset ids
        simp only [List.length_cons]
        omega
      · rcases List.mem_cons.1 hm with h | h
        · exact absurd h hi
        · have := ih h
          split <;> simp only [List.length_cons] <;> omega
  have := hlt s.rowIds (by rw [hids]; exact List.mem_map.2 ⟨r, hr, rfl⟩)
  unfold mergePart oldRows takeVectors
  simp only
  rw [if_neg (by omega)]

theorem C110_violated : ¬ C110_statement := by
  intro h
  have h1 := h id ⟨0, 8⟩ .l2 1 (fun _ => none) [[(7, [4])]] [] [⟨⟨0, 8⟩, .l2, 1, [7], [128]⟩] (by decide) (fun _ => rfl) (by decide) (by simp)
    (fun _ _ _ _ => Or.inr rfl) (by decide +kernel)
  exact absurd h1 (by decide +kernel)

/-- The hypotheses of `C110_merge_partial` are met: two partitions and a new row. -/
theorem C110_nonvacuous : ([[(7, [0])], [(8, [8])]].mapM (buildPart id ⟨0, 8⟩ .l2 1)).bind
      (fun olds => mergePart id ⟨0, 8⟩ .l2 1 (fun id => if id = 7 then some [0] else some [8]) olds [(9, [4])]) =
    some ⟨⟨0, 8⟩, .l2, 1, [7, 8, 9], [0, 255, 128]⟩ := by decide +kernel

end Verif.Sq
