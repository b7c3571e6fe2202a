import Verif.RowIds.Segment
import Verif.RowIds.PropsArrays
import Verif.Common.Bm

/-! # Helper lemmas for segments -/
namespace Verif.RowIds
open Verif.Deletion (countBelow countBelow_congr countBelow_not countBelow_mono countP_lt)

/-- Strictly increasing. -/
abbrev Inc (l : List Nat) : Prop := l.Pairwise (· < ·)

theorem Inc.nodup {l : List Nat} (h : Inc l) : l.Nodup := List.Pairwise.imp (fun h => by omega) h

theorem inc_range' (s n : Nat) : Inc (List.range' s n) := List.pairwise_lt_range'

theorem Inc.filter {l : List Nat} (h : Inc l) (p : Nat → Bool) : Inc (l.filter p) := List.Pairwise.filter p h

theorem Inc.ext {l m : List Nat} (h : Inc l) (h' : Inc m) (hm : ∀ x, x ∈ l ↔ x ∈ m) : l = m :=
  Bm.Sorted.ext h h' hm

theorem inc_sublist_range' {l : List Nat} (h : Inc l) (s n : Nat) (hb : ∀ x ∈ l, s ≤ x ∧ x < s + n) :
    l.Sublist (List.range' s n) := by
  have : l = (List.range' s n).filter (fun x => l.contains x) := by
    apply Inc.ext h ((inc_range' s n).filter _)
    intro x
    simp only [List.mem_filter, List.mem_range'_1, List.contains_iff_mem]
    exact ⟨fun hx => ⟨hb x hx, hx⟩, fun hx => hx.2⟩
  rw [this]
  exact List.filter_sublist

namespace Seg

theorem skipMatching_nil (xs : List Nat) : skipMatching xs [] = xs := by
  induction xs with
  | nil => rfl
  | cons x xs ih => simp [skipMatching, ih]

theorem skipMatching_spec (xs vals : List Nat) (hn : xs.Nodup) (hs : vals.Sublist xs) :
    skipMatching xs vals = xs.filter (fun x => !vals.contains x) := by
  induction xs generalizing vals with
  | nil => simp [skipMatching]
  | cons x xs ih =>
    obtain ⟨hx, hxs⟩ := List.nodup_cons.1 hn
    cases vals with
    | nil => rw [skipMatching_nil, List.filter_eq_self.2]; intro a _; rfl
    | cons v vals =>
      by_cases hv : v = x
      · subst hv
        simp only [skipMatching, if_true]
        have hs' : vals.Sublist xs := by simpa using hs
        rw [ih vals hxs hs', List.filter_cons]
        simp only [List.contains_cons, BEq.rfl, Bool.true_or, Bool.not_true, Bool.false_eq_true, if_false]
        apply List.filter_congr
        intro y hy
        have : (y == v) = false := by
          rw [beq_eq_false_iff_ne]; intro e; subst e; exact hx hy
        rw [this, Bool.false_or]
      · simp only [skipMatching, if_neg hv]
        have hs' : (v :: vals).Sublist xs := by
          cases hs with
          | cons _ h => exact h
          | cons_cons _ h => exact absurd rfl hv
        rw [ih (v :: vals) hxs hs', List.filter_cons]
        have : (v :: vals).contains x = false := by
          rw [Bool.eq_false_iff]
          intro hc
          exact hx (hs'.subset (by simpa using hc))
        rw [this]; simp

theorem holesInSlice_spec (lo hi : Nat) (l : List Nat) (h : Inc l) (hb : ∀ x ∈ l, lo ≤ x ∧ x ≤ hi) :
    holesInSlice lo hi l = (List.range' lo (hi + 1 - lo)).filter (fun x => !l.contains x) := by
  unfold holesInSlice
  apply skipMatching_spec _ _ (inc_range' _ _).nodup
  apply inc_sublist_range' h
  intro x hx
  have := hb x hx
  omega

/-! ## compute_stats -/

theorem statStep_count (l : List Nat) (st : Stats) : (l.foldl statStep st).count = st.count + l.length := by
  induction l generalizing st with
  | nil => simp
  | cons v l ih => simp only [List.foldl_cons, ih, List.length_cons]; simp [statStep]; omega

theorem foldl_statStep (l : List Nat) (st : Stats) (hc : st.count ≥ 1) (hm : st.min ≤ st.max)
    (hs : (l.foldl statStep st).sorted = true) :
    st.sorted = true ∧ (st.max :: l).Pairwise (· ≤ ·) ∧ (l.foldl statStep st).min = st.min ∧
    (l.foldl statStep st).max = (st.max :: l).getLast (by simp) := by
  induction l generalizing st with
  | nil => exact ⟨hs, by simp, rfl, rfl⟩
  | cons v l ih =>
    simp only [List.foldl_cons] at hs ⊢
    have hm' : (statStep st v).min ≤ (statStep st v).max := by
      simp only [statStep]; split <;> split <;> omega
    obtain ⟨h1, h2, h3, h4⟩ := ih (statStep st v) (by simp [statStep]) hm' hs
    have h1' : st.sorted = true ∧ ¬ v < (statStep st v).max := by
      have hcount : st.count + 1 > 1 := by omega
      simp only [statStep, hcount, decide_true, Bool.true_and, Bool.and_eq_true, Bool.not_eq_true',
        decide_eq_false_iff_not] at h1
      exact h1
    have hmax : (statStep st v).max = v ∧ st.max ≤ v := by
      have := h1'.2
      simp only [statStep] at this ⊢
      split at this <;> split <;> omega
    have hmin : (statStep st v).min = st.min := by
      simp only [statStep]; split <;> omega
    rw [hmax.1] at h2 h4
    refine ⟨h1'.1, ?_, by rw [h3, hmin], ?_⟩
    · rw [List.pairwise_cons]
      refine ⟨?_, h2⟩
      intro y hy
      rcases List.mem_cons.1 hy with rfl | hy
      · exact hmax.2
      · exact Nat.le_trans hmax.2 ((List.pairwise_cons.1 h2).1 y hy)
    · rw [h4]; simp

theorem foldl_sorted_of_pairwise (l : List Nat) (st : Stats) (hs : st.sorted = true)
    (h : (st.max :: l).Pairwise (· ≤ ·)) : (l.foldl statStep st).sorted = true := by
  induction l generalizing st with
  | nil => exact hs
  | cons v l ih =>
    obtain ⟨h1, h2⟩ := List.pairwise_cons.1 h
    have hv := h1 v List.mem_cons_self
    have hmax : (statStep st v).max = v := by
      simp only [statStep]; split <;> omega
    apply ih
    · simp only [statStep, hs]
      have hnl : ¬ v < (if v > st.max then v else st.max) := by split <;> omega
      simp [hnl]
    · rw [hmax]; exact h2

theorem computeStats_sorted (l : List Nat) (hne : l ≠ []) (hb : ∀ x ∈ l, x < U64) :
    (computeStats l).count = l.length ∧
    ((computeStats l).sorted = true → l.Pairwise (· ≤ ·) ∧ (computeStats l).min = l.head hne ∧
      (computeStats l).max = l.getLast hne) ∧
    (l.Pairwise (· ≤ ·) → (computeStats l).sorted = true) := by
  have hcount := statStep_count l ⟨U64 - 1, 0, 0, true⟩
  have hlen : 0 < l.length := List.length_pos_iff.2 hne
  have hunf : computeStats l = l.foldl statStep ⟨U64 - 1, 0, 0, true⟩ := by
    unfold computeStats
    simp only
    rw [if_neg (by rw [hcount]; simp only; omega)]
  rw [hunf]
  refine ⟨by rw [hcount]; simp, ?_, ?_⟩
  · cases l with
    | nil => exact absurd rfl hne
    | cons v l =>
      intro hs
      simp only [List.foldl_cons] at hs ⊢
      have hv := hb v List.mem_cons_self
      have e : statStep ⟨U64 - 1, 0, 0, true⟩ v = ⟨v, v, 1, true⟩ := by
        simp only [statStep, Stats.mk.injEq]
        refine ⟨by split <;> omega, by split <;> omega, trivial, by simp⟩
      rw [e] at hs ⊢
      obtain ⟨_, h2, h3, h4⟩ := foldl_statStep l ⟨v, v, 1, true⟩ (by simp) (by simp) hs
      exact ⟨h2, h3, h4⟩
  · intro hp
    apply foldl_sorted_of_pairwise _ _ rfl
    rw [List.pairwise_cons]
    exact ⟨fun _ _ => Nat.zero_le _, hp⟩

theorem le_nodup_inc {l : List Nat} (h : l.Pairwise (· ≤ ·)) (hn : l.Nodup) : Inc l :=
  (List.Pairwise.and h hn).imp (fun ⟨h1, h2⟩ => by omega)

theorem inc_bounds {l : List Nat} (h : Inc l) (hne : l ≠ []) (x : Nat) (hx : x ∈ l) :
    l.head hne ≤ x ∧ x ≤ l.getLast hne := by
  constructor
  · cases l with
    | nil => exact absurd rfl hne
    | cons y ys =>
      rcases List.mem_cons.1 hx with rfl | hx
      · simp
      · have := (List.pairwise_cons.1 h).1 x hx; simp; omega
  · have e := List.dropLast_concat_getLast hne
    rw [← e] at hx h
    rw [List.mem_append] at hx
    rcases hx with hx | hx
    · have := (List.pairwise_append.1 h).2.2 x hx (l.getLast hne) (by simp); omega
    · simp at hx; omega

/-! ## Well-formed segments -/

/-- The invariant of segments built by this code. -/
def WF : Seg → Prop
  | range s e => s ≤ e ∧ e < U64
  | holes s e h => s < e ∧ e < U64 ∧ h.WF ∧ Inc h.iter ∧ ∀ x ∈ h.iter, s ≤ x ∧ x < e
  | bitmap s e b => s < e ∧ e < U64 ∧ b.WF ∧ b.len = e - s
  | sorted a => a.WF ∧ Inc a.iter
  | array a => a.WF ∧ a.iter.Nodup

theorem search_toBool (h : Enc) (hwf : h.WF) (v : Nat) : (h.search v).toBool = h.iter.contains v := by
  rw [Enc.search_eq h hwf]
  unfold Enc.binSearch
  split
  · rename_i hc; rw [hc]; rfl
  · rename_i hc; rw [Bool.eq_false_iff.2 hc]; rfl

theorem iter_holes (s e : Nat) (h : Enc) (hwf : h.WF) :
    (holes s e h).iter = (List.range' s (e - s)).filter (fun v => !h.iter.contains v) := by
  simp only [iter, search_toBool h hwf]

theorem iter_bitmap (s e : Nat) (b : Bitmap) (hwf : b.WF) (hl : b.len = e - s) :
    (bitmap s e b).iter = (List.range' s (e - s)).filter (fun v => bit b.data (v - s)) := by
  simp only [iter]
  apply List.filter_congr
  intro x hx
  rw [List.mem_range'_1] at hx
  have := hwf.1
  rw [Bitmap.get_eq b (x - s) (by omega)]; rfl

theorem iter_nodup (sg : Seg) (h : sg.WF) : sg.iter.Nodup := by
  cases sg with
  | range s e => exact (inc_range' _ _).nodup
  | holes s e hh => exact ((inc_range' _ _).filter _).nodup
  | bitmap s e b => exact ((inc_range' _ _).filter _).nodup
  | sorted a => exact h.2.nodup
  | array a => exact h.2

theorem iter_inc (sg : Seg) (h : sg.WF) (hs : sg.isSorted = true) : Inc sg.iter := by
  cases sg with
  | range s e => exact inc_range' _ _
  | holes s e hh => exact (inc_range' _ _).filter _
  | bitmap s e b => exact (inc_range' _ _).filter _
  | sorted a => exact h.2
  | array a => cases hs

/-! ## Building segments -/

theorem clearAll_spec (base : Nat) (hs : List Nat) (b : Bitmap) (hwf : b.WF)
    (hb : ∀ x ∈ hs, base ≤ x ∧ x - base < b.len) :
    ∃ b', clearAll base hs b = some b' ∧ b'.WF ∧ b'.len = b.len ∧
      ∀ j, bit b'.data j = (bit b.data j && !hs.contains (base + j)) := by
  induction hs generalizing b with
  | nil => exact ⟨b, rfl, hwf, rfl, by simp⟩
  | cons x xs ih =>
    have hx := hb x List.mem_cons_self
    have hlen := hwf.1
    have hset : ∃ b1, b.clear (x - base) = some b1 := by
      unfold Bitmap.clear; rw [if_pos (by omega)]; exact ⟨_, rfl⟩
    obtain ⟨b1, hb1⟩ := hset
    obtain ⟨s1, s2, s3⟩ := Bitmap.bit_clear b b1 _ hb1
    have hwf1 : b1.WF := by
      refine ⟨by omega, ?_⟩
      intro j hj
      rw [s3, hwf.2 j (by omega)]; simp
    obtain ⟨b', h1, h2, h3, h4⟩ := ih b1 hwf1 (by
      intro y hy
      have := hb y (List.mem_cons_of_mem _ hy)
      omega)
    refine ⟨b', by simp [clearAll, hb1, h1], h2, by omega, ?_⟩
    intro j
    rw [h4, s3, Bool.and_assoc, List.contains_cons, Bool.not_or]
    congr 2
    have : (j = x - base) ↔ (base + j = x) := by omega
    simp only [this]
    rfl

theorem filter_not_not (l m : List Nat) (hm : ∀ x ∈ m, x ∈ l) (hl : Inc l) (hminc : Inc m) :
    l.filter (fun v => !(l.filter (fun x => !m.contains x)).contains v) = m := by
  apply Inc.ext (hl.filter _) hminc
  intro x
  simp only [List.mem_filter, Bool.not_eq_true', List.contains_eq_mem, decide_eq_false_iff_not, not_and,
    Decidable.not_not, decide_eq_true_eq]
  exact ⟨fun ⟨h1, h2⟩ => h2 h1, fun hx => ⟨hm x hx, fun _ => hx⟩⟩

theorem fromStats_sorted (seq : List Nat) (hne : seq ≠ []) (hinc : Inc seq)
    (hmx : seq.getLast hne + 1 < U64) (hspread : seq.getLast hne - seq.head hne < 2 ^ 61) :
    ∃ sg, fromStats ⟨seq.head hne, seq.getLast hne, seq.length, true⟩ seq = some sg ∧ sg.WF ∧ sg.iter = seq := by
  have hb := fun x hx => inc_bounds hinc hne x hx
  have hle : seq.head hne ≤ seq.getLast hne := (hb _ (List.getLast_mem hne)).1
  generalize hmn : seq.head hne = mn at *
  generalize hmxx : seq.getLast hne = mx at *
  have hsub : seq.Sublist (List.range' mn (mx + 1 - mn)) := by
    apply inc_sublist_range' hinc
    intro x hx
    have := hb x hx
    omega
  have hlen : seq.length ≤ mx + 1 - mn := by simpa using hsub.length_le
  have hpos : 0 < seq.length := List.length_pos_iff.2 hne
  have hnh : Stats.nHoles ⟨mn, mx, seq.length, true⟩ = some (mx - mn + 1 - seq.length) := by
    unfold Stats.nHoles
    simp only
    rw [if_neg (by omega), if_pos (by omega)]
  have hholes : holesInSlice mn mx seq = (List.range' mn (mx + 1 - mn)).filter (fun x => !seq.contains x) :=
    holesInSlice_spec mn mx seq hinc hb
  have hhinc : Inc ((List.range' mn (mx + 1 - mn)).filter (fun x => !seq.contains x)) :=
    (inc_range' _ _).filter _
  unfold fromStats
  simp only [if_true]
  rw [hnh]
  simp only
  rw [if_neg (by omega)]
  split
  · rename_i h0
    refine ⟨_, rfl, ⟨by omega, by omega⟩, ?_⟩
    simp only [iter]
    exact (hsub.eq_of_length (by simp; omega)).symm
  · rename_i h0
    unfold sizes
    rw [hnh]
    simp only
    rw [if_pos (by omega)]
    simp only
    split
    · have hms : sortBy id ((List.range' mn (mx + 1 - mn)).filter (fun x => !seq.contains x)) =
          (List.range' mn (mx + 1 - mn)).filter (fun x => !seq.contains x) := by
        apply sortBy_of_sorted
        apply List.Pairwise.imp _ hhinc
        intro a b h; simp; omega
      rw [hholes, hms]
      refine ⟨_, rfl, ⟨by omega, by omega, Enc.wf_ofList _, ?_, ?_⟩, ?_⟩
      · rw [Enc.iter_ofList]; exact hhinc
      · rw [Enc.iter_ofList]
        intro x hx
        rw [List.mem_filter, List.mem_range'_1] at hx
        omega
      · rw [iter_holes _ _ _ (Enc.wf_ofList _), Enc.iter_ofList]
        exact filter_not_not _ _ (fun x hx => hsub.subset hx) (inc_range' _ _) hinc
    · split
      · obtain ⟨b', h1, h2, h3, h4⟩ := clearAll_spec mn (holesInSlice mn mx seq) (Bitmap.newFull (mx - mn + 1))
          (Bitmap.wf_newFull _) (by
            intro x hx
            rw [hholes, List.mem_filter, List.mem_range'_1] at hx
            rw [Bitmap.len_newFull]
            omega)
        rw [Bitmap.len_newFull] at h3
        rw [h1]
        refine ⟨_, rfl, ⟨by omega, by omega, h2, by omega⟩, ?_⟩
        rw [iter_bitmap _ _ _ h2 (by omega)]
        conv => rhs; rw [← filter_not_not _ _ (fun x hx => hsub.subset hx) (inc_range' _ _) hinc]
        apply List.filter_congr
        intro x hx
        rw [List.mem_range'_1] at hx
        rw [h4, Bitmap.bit_newFull, hholes, show mn + (x - mn) = x by omega]
        have : x - mn < mx - mn + 1 := by omega
        simp [this]
      · exact ⟨_, rfl, ⟨Enc.wf_ofList _, by rw [Enc.iter_ofList]; exact hinc⟩, by simp [iter, Enc.iter_ofList]⟩

theorem fromStats_unsorted (st : Stats) (seq : List Nat) (h : st.sorted = false) (hn : seq.Nodup) :
    ∃ sg, fromStats st seq = some sg ∧ sg.WF ∧ sg.iter = seq := by
  unfold fromStats
  rw [h]
  exact ⟨_, rfl, ⟨Enc.wf_ofList _, by rw [Enc.iter_ofList]; exact hn⟩, by simp [iter, Enc.iter_ofList]⟩

/-- Ids that the code can handle without overflow. -/
def Small (l : List Nat) : Prop := (∀ x ∈ l, x + 1 < U64) ∧ ∀ x ∈ l, ∀ y ∈ l, x - y < 2 ^ 61

theorem Small.subset {l m : List Nat} (h : Small l) (hs : ∀ x ∈ m, x ∈ l) : Small m :=
  ⟨fun x hx => h.1 x (hs x hx), fun x hx y hy => h.2 x (hs x hx) y (hs y hy)⟩

theorem fromStats_computeStats (l : List Nat) (hn : l.Nodup) (hb : Small l) :
    ∃ sg, fromStats (computeStats l) l = some sg ∧ sg.WF ∧ sg.iter = l := by
  by_cases hne : l = []
  · subst hne
    exact ⟨range 0 0, rfl, ⟨by omega, by omega⟩, rfl⟩
  · obtain ⟨h1, h2, _⟩ := computeStats_sorted l hne (fun x hx => by have := hb.1 x hx; omega)
    cases hs : (computeStats l).sorted with
    | false => exact fromStats_unsorted _ _ hs hn
    | true =>
      obtain ⟨h3, h4, h5⟩ := h2 hs
      have : computeStats l = ⟨l.head hne, l.getLast hne, l.length, true⟩ := by
        rw [← h4, ← h5, ← h1, ← hs]
      rw [this]
      exact fromStats_sorted l hne (le_nodup_inc h3 hn) (hb.1 _ (List.getLast_mem hne))
        (hb.2 _ (List.getLast_mem hne) _ (List.head_mem hne))

end Seg
end Verif.RowIds
