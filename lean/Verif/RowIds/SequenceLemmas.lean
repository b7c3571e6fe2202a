import Verif.RowIds.Sequence
import Verif.RowIds.PropsSegment

/-! # Helper lemmas for row id sequences -/
namespace Verif.RowIds
open Seg (WF Small dropAt)

namespace Seg

/-- Well-formed, and an array segment is not empty (`range()` would panic). -/
def Good (sg : Seg) : Prop := sg.WF ∧ (sg.iter = [] → ∃ s e, sg = range s e)

theorem bounds_good (sg : Seg) (h : sg.Good) :
    (∃ lo hi, sg.bounds = some (some (lo, hi)) ∧ ∀ v ∈ sg.iter, lo ≤ v ∧ v ≤ hi) ∨
    (sg.bounds = some none ∧ sg.iter = []) := by
  by_cases hne : sg.iter = []
  · obtain ⟨s, e, rfl⟩ := h.2 hne
    right
    refine ⟨?_, hne⟩
    simp only [bounds]
    have : e - s = 0 := by simpa [iter] using hne
    rw [if_pos (by omega)]
  · obtain ⟨lo, hi, h1, _, h2⟩ := C10_bounds sg h.1 hne
    exact Or.inl ⟨lo, hi, h1, h2⟩

theorem good_of_iter_ne (sg : Seg) (h : sg.WF) (hne : sg.iter ≠ []) : sg.Good := ⟨h, fun e => absurd e hne⟩

theorem delete_good (sg : Seg) (h : sg.WF) (hs : Small sg.iter) (vals : List Nat) (hv : vals.Sublist sg.iter) :
    ∃ sg', sg.delete vals = some sg' ∧ sg'.Good ∧ sg'.iter = sg.iter.filter (fun x => !vals.contains x) := by
  obtain ⟨sg', h1, h2, h3⟩ := C10_delete sg h hs vals hv
  refine ⟨sg', h1, ?_, h3.1⟩
  by_cases hne : sg'.iter = []
  · refine ⟨h2, fun _ => ?_⟩
    unfold delete at h1
    rw [skipMatching_spec _ _ (iter_nodup sg h) hv, ← h3.1, hne] at h1
    cases h1
    exact ⟨0, 0, rfl⟩
  · exact good_of_iter_ne sg' h2 hne

theorem mask_good (sg : Seg) (hg : sg.Good) (hsm : Small sg.iter) (ps : List Nat) (hinc : Inc ps)
    (hb : ∀ p ∈ ps, p < sg.iter.length) (hlen : sg.iter.length ≤ 4294967296) :
    ∃ sg', sg.mask ps = some sg' ∧ sg'.Good ∧ sg'.iter = dropAt ps sg.iter := by
  obtain ⟨sg', h1, h2, h3⟩ := mask_eq sg hg.1 hsm ps hinc hb hlen
  refine ⟨sg', h1, ?_, h3⟩
  by_cases hne : sg'.iter = []
  · have hdl := dropAt_length ps sg.iter hinc.nodup hb
    rw [← h3, hne] at hdl
    have hle : ps.length ≤ sg.iter.length := by
      have := Verif.Deletion.nodup_length_le (t := List.range sg.iter.length) hinc.nodup
        (fun x hx => by simpa using hb x hx)
      simpa using this
    simp only [List.length_nil] at hdl
    have hl := len_eq sg hg.1
    unfold mask at h1
    split at h1
    · cases h1; exact hg
    · rw [if_pos (by omega)] at h1
      cases h1
      exact ⟨h2, fun _ => ⟨0, 0, rfl⟩⟩
  · exact good_of_iter_ne sg' h2 hne

/-- Representations whose `slice` is right. -/
def Sliceable : Seg → Prop
  | range _ _ => True
  | sorted _ => True
  | array _ => True
  | _ => False

theorem slice_ok (sg : Seg) (h : sg.WF) (hs : sg.Sliceable) (off n : Nat) (hb : off + n ≤ sg.iter.length) :
    ∃ sg', sg.slice off n = some sg' ∧ sg'.WF ∧ sg'.iter = (sg.iter.drop off).take n := by
  cases sg with
  | range s e =>
    have hl : off + n ≤ e - s := by simpa [iter] using hb
    have h1 := h.1
    have h2 := h.2
    refine ⟨_, rfl, ⟨by omega, by omega⟩, ?_⟩
    have e1 : List.range' s (e - s) = List.range' s off ++ (List.range' (s + off) n ++
        List.range' (s + off + n) (e - s - off - n)) := by
      rw [List.range'_append_1, List.range'_append_1]; congr 1; omega
    simp only [iter]
    rw [e1, List.drop_left' (by simp), List.take_left' (by simp)]
    congr 1; omega
  | holes s e hh => cases hs
  | bitmap s e b => cases hs
  | sorted a =>
    obtain ⟨e', h1, h2, h3⟩ := Enc.slice_some a off n (by rw [Enc.len_eq]; exact hb)
    refine ⟨sorted e', by simp [slice, h1], ⟨h3, ?_⟩, h2⟩
    rw [h2]
    exact (h.2.sublist (List.drop_sublist _ _)).sublist (List.take_sublist _ _)
  | array a =>
    obtain ⟨e', h1, h2, h3⟩ := Enc.slice_some a off n (by rw [Enc.len_eq]; exact hb)
    refine ⟨array e', by simp [slice, h1], ⟨h3, ?_⟩, h2⟩
    rw [h2]
    exact (h.2.sublist (List.drop_sublist _ _)).sublist (List.take_sublist _ _)

end Seg

namespace Seq

theorem iter_nil : iter [] = [] := rfl
theorem iter_cons (sg : Seg) (q : Seq) : iter (sg :: q) = sg.iter ++ iter q := by simp [iter]
theorem iter_append (a b : Seq) : iter (a ++ b) = iter a ++ iter b := by simp [iter]

theorem len_eq (q : Seq) (h : ∀ sg ∈ q, sg.WF) : len q = (iter q).length := by
  induction q with
  | nil => rfl
  | cons sg q ih =>
    have ih' := ih (fun s hs => h s (List.mem_cons_of_mem _ hs))
    rw [iter_cons, List.length_append, ← ih', ← Seg.len_eq sg (h sg List.mem_cons_self)]
    simp [len]

theorem range'_split (s1 e1 e2 : Nat) (h1 : s1 ≤ e1) (h2 : e1 ≤ e2) :
    List.range' s1 (e2 - s1) = List.range' s1 (e1 - s1) ++ List.range' e1 (e2 - e1) := by
  have : List.range' e1 (e2 - e1) = List.range' (s1 + (e1 - s1)) (e2 - e1) := by
    congr 1; omega
  rw [this, List.range'_append_1]
  congr 1; omega

theorem extend_spec (q o : Seq) (hq : ∀ sg ∈ q, sg.WF) (ho : ∀ sg ∈ o, sg.WF) :
    iter (extend q o) = iter q ++ iter o ∧ ∀ sg ∈ extend q o, sg.WF := by
  have hdef : iter (q ++ o) = iter q ++ iter o ∧ ∀ sg ∈ q ++ o, sg.WF := by
    refine ⟨iter_append q o, ?_⟩
    intro sg hsg
    rcases List.mem_append.1 hsg with h | h
    · exact hq sg h
    · exact ho sg h
  unfold extend
  split
  · rename_i s1 e1 s2 e2 rest hlast
    split
    · rename_i he
      subst he
      have hql : q = q.dropLast ++ [Seg.range s1 e1] := by
        have hne : q ≠ [] := by intro e; subst e; simp at hlast
        have := List.dropLast_concat_getLast hne
        rw [List.getLast?_eq_some_getLast hne] at hlast
        have hh := Option.some.inj hlast
        rw [← hh]; exact this.symm
      have hm1 : Seg.range s1 e1 ∈ q := by rw [hql]; simp
      have hw1 := hq _ hm1
      have hw2 := ho _ List.mem_cons_self
      refine ⟨?_, ?_⟩
      · conv => rhs; rw [hql]
        rw [iter_append, iter_append, iter_cons, iter_cons, iter_cons, iter_nil]
        simp only [Seg.iter, List.append_nil, List.append_assoc]
        rw [range'_split s1 e1 e2 hw1.1 hw2.1, List.append_assoc]
      · intro sg hsg
        rw [List.mem_append, List.mem_cons] at hsg
        rcases hsg with h | rfl | h
        · exact hq sg (List.dropLast_subset _ h)
        · exact ⟨Nat.le_trans hw1.1 hw2.1, hw2.2⟩
        · exact ho sg (List.mem_cons_of_mem _ h)
    · exact hdef
  · exact hdef

/-! ## find_ids and delete -/

theorem matchesIn_spec (sg : Seg) (h : sg.Good) (ids : List Nat) :
    matchesIn sg ids = some ((ids.filter (fun v => sg.iter.contains v)).map sg.iter.idxOf) := by
  induction ids with
  | nil => rfl
  | cons v vs ih =>
    unfold matchesIn
    rcases Seg.bounds_good sg h with ⟨lo, hi, hb, hall⟩ | ⟨hb, he⟩
    · rw [hb]
      simp only
      by_cases hv : v ∈ sg.iter
      · rw [if_pos (hall v hv), Seg.position_eq sg h.1, if_pos hv]
        simp only
        rw [ih, List.filter_cons, if_pos (by simpa using hv)]
        rfl
      · have hf : (v :: vs).filter (fun v => sg.iter.contains v) = vs.filter (fun v => sg.iter.contains v) := by
          rw [List.filter_cons, if_neg (by simpa using hv)]
        rw [hf, ← ih]
        split
        · rw [Seg.position_eq sg h.1, if_neg hv]
        · rfl
    · rw [hb]
      simp only
      rw [ih, he]
      simp

theorem sequence_map_some {α β : Type} (l : List α) (f : α → Option β) (g : α → β) (h : ∀ x ∈ l, f x = some (g x)) :
    sequence (l.map f) = some (l.map g) := by
  induction l with
  | nil => rfl
  | cons x xs ih =>
    simp only [List.map_cons, h x List.mem_cons_self, sequence,
      ih (fun y hy => h y (List.mem_cons_of_mem _ hy)), Option.map_some]

theorem sequence_append {α : Type} (a b : List (Option α)) (x y : List α) (ha : sequence a = some x)
    (hb : sequence b = some y) : sequence (a ++ b) = some (x ++ y) := by
  induction a generalizing x with
  | nil => simp [sequence] at ha; subst ha; simpa using hb
  | cons z zs ih =>
    cases z with
    | none => cases ha
    | some z =>
      simp only [sequence, Option.map_eq_some_iff] at ha
      obtain ⟨w, hw, rfl⟩ := ha
      simp [sequence, ih w hw]

/-- The positions and the ids deleted from one segment. -/
def posOf (sg : Seg) (ids : List Nat) : List Nat :=
  sortBy id ((ids.filter (fun v => sg.iter.contains v)).map sg.iter.idxOf)

def valsOf (sg : Seg) (ids : List Nat) : List Nat := (posOf sg ids).map (fun i => sg.iter.getD i 0)

theorem mem_posOf (sg : Seg) (ids : List Nat) (i : Nat) :
    i ∈ posOf sg ids ↔ ∃ v ∈ ids, v ∈ sg.iter ∧ sg.iter.idxOf v = i := by
  unfold posOf
  rw [mem_sortBy, List.mem_map]
  simp only [List.mem_filter, List.contains_iff_mem, and_assoc]

theorem idxOf_inj {l : List Nat} {a b : Nat} (ha : a ∈ l) (hb : b ∈ l) (h : l.idxOf a = l.idxOf b) : a = b := by
  have h1 := getElem?_idxOf_mem ha
  have h2 := getElem?_idxOf_mem hb
  rw [h, h2] at h1
  cases h1; rfl

theorem posOf_inc (sg : Seg) (ids : List Nat) (hn : ids.Nodup) : Inc (posOf sg ids) := by
  have hnd : (posOf sg ids).Nodup := by
    unfold posOf
    rw [(sortBy_perm _ _).nodup_iff]
    unfold List.Nodup
    rw [List.pairwise_map]
    apply List.Pairwise.imp_of_mem _ (hn.sublist (List.filter_sublist (p := fun v => sg.iter.contains v)))
    intro a b ha hb hab hc
    rw [List.mem_filter] at ha hb
    exact hab (idxOf_inj (by simpa using ha.2) (by simpa using hb.2) hc)
  have hle : (posOf sg ids).Pairwise (fun a b => a ≤ b) := by
    exact sortBy_sorted id _
  exact Seg.le_nodup_inc hle hnd

theorem posOf_lt (sg : Seg) (ids : List Nat) : ∀ i ∈ posOf sg ids, i < sg.iter.length := by
  intro i hi
  obtain ⟨v, _, hv, rfl⟩ := (mem_posOf sg ids i).1 hi
  exact List.idxOf_lt_length_iff.2 hv

theorem mem_valsOf (sg : Seg) (ids : List Nat) (v : Nat) : v ∈ valsOf sg ids ↔ v ∈ ids ∧ v ∈ sg.iter := by
  unfold valsOf
  rw [List.mem_map]
  constructor
  · rintro ⟨i, hi, rfl⟩
    obtain ⟨w, hw, hws, rfl⟩ := (mem_posOf sg ids i).1 hi
    have := getElem?_idxOf_mem hws
    rw [List.getD_eq_getElem?_getD, this]
    exact ⟨hw, hws⟩
  · rintro ⟨h1, h2⟩
    refine ⟨sg.iter.idxOf v, (mem_posOf sg ids _).2 ⟨v, h1, h2, rfl⟩, ?_⟩
    rw [List.getD_eq_getElem?_getD, getElem?_idxOf_mem h2]; rfl

theorem map_getD_sublist (l P : List Nat) (hinc : Inc P) (hb : ∀ i ∈ P, i < l.length) :
    (P.map (fun i => l.getD i 0)).Sublist l := by
  have h1 : P.Sublist (List.range l.length) := by
    rw [List.range_eq_range']
    apply inc_sublist_range' hinc
    intro i hi; have := hb i hi; omega
  have h2 := h1.map (fun i => l.getD i 0)
  have h3 : (List.range l.length).map (fun i => l.getD i 0) = l := by
    apply List.ext_getElem
    · simp
    · intro i h1 h2; simp [List.getElem?_eq_getElem h2]
  rw [h3] at h2
  exact h2

theorem valsOf_sublist (sg : Seg) (ids : List Nat) (hn : ids.Nodup) : (valsOf sg ids).Sublist sg.iter :=
  map_getD_sublist _ _ (posOf_inc sg ids hn) (posOf_lt sg ids)

theorem rangesFrom_congr (i o : Nat) (a b : List (List Nat)) (h : a.map List.length = b.map List.length) :
    rangesFrom i o a = rangesFrom i o b := by
  induction a generalizing i o b with
  | nil => cases b with
    | nil => rfl
    | cons _ _ => cases h
  | cons x xs ih =>
    cases b with
    | nil => cases h
    | cons y ys =>
      simp only [List.map_cons, List.cons.injEq] at h
      simp only [rangesFrom]
      have he : x.isEmpty = y.isEmpty := by
        cases x <;> cases y <;> simp_all
      rw [he, h.1]
      split
      · exact ih _ _ _ h.2
      · rw [ih _ _ _ h.2]

/-- One segment with the ids to delete and the result. -/
structure Edit where
  seg : Seg
  vals : List Nat
  new : Seg

theorem deleteLoop_spec (total : Nat) (rowIds : List Nat) (T : List Edit) (pre acc : Seq) (handled i o : Nat)
    (hi : i = handled + pre.length) (htot : total = handled + pre.length + T.length)
    (hrow : rowIds.drop o = T.flatMap Edit.vals)
    (hT : ∀ t ∈ T, (t.vals = [] → t.new = t.seg) ∧ (t.vals ≠ [] → t.seg.delete t.vals = some t.new)) :
    ∃ a r, deleteLoop total rowIds (rangesFrom i o (T.map Edit.vals)) (pre ++ T.map Edit.seg) acc = some (a, r) ∧
      a ++ r = acc ++ pre ++ T.map Edit.new := by
  induction T generalizing pre acc handled i o with
  | nil => exact ⟨acc, pre, by simp [rangesFrom, deleteLoop], by simp⟩
  | cons t T ih =>
    have ht := hT t List.mem_cons_self
    have hT' : ∀ t ∈ T, (t.vals = [] → t.new = t.seg) ∧ (t.vals ≠ [] → t.seg.delete t.vals = some t.new) :=
      fun x hx => hT x (List.mem_cons_of_mem _ hx)
    simp only [List.map_cons, rangesFrom]
    simp only [List.length_cons] at htot
    by_cases hv : t.vals = []
    · rw [hv]
      simp only [List.isEmpty_nil, if_true]
      obtain ⟨a, r, h1, h2⟩ := ih (pre ++ [t.seg]) acc handled (i + 1) o (by simp; omega) (by simp; omega)
        (by rw [hrow]; simp [hv]) hT'
      refine ⟨a, r, ?_, ?_⟩
      · rw [← h1]; simp
      · rw [h2, ht.1 hv]; simp
    · have hvne : t.vals.isEmpty = false := by
        cases hvv : t.vals with
        | nil => exact absurd hvv hv
        | cons _ _ => rfl
      rw [hvne]
      simp only [Bool.false_eq_true, if_false, deleteLoop]
      have hhand : total - (pre ++ t.seg :: T.map Edit.seg).length = handled := by
        simp; omega
      rw [hhand, if_neg (by omega)]
      have hadd : i - handled = pre.length := by omega
      rw [hadd, List.drop_left, List.take_left]
      simp only
      have hslice : (rowIds.drop o).take (o + t.vals.length - o) = t.vals := by
        rw [hrow, List.flatMap_cons, show o + t.vals.length - o = t.vals.length by omega, List.take_left]
      rw [hslice, ht.2 hv]
      simp only
      have hrow' : rowIds.drop (o + t.vals.length) = T.flatMap Edit.vals := by
        rw [← List.drop_drop, hrow, List.flatMap_cons, List.drop_left]
      obtain ⟨a, r, h1, h2⟩ := ih [] (acc ++ pre ++ [t.new]) (i + 1) (i + 1) (o + t.vals.length)
        (by simp) (by simp; omega) hrow' hT'
      refine ⟨a, r, by simpa using h1, ?_⟩
      rw [h2]; simp

theorem choose_edits (q : Seq) (ids : List Nat) (hn : ids.Nodup) (hq : ∀ sg ∈ q, sg.Good ∧ Small sg.iter) :
    ∃ T : List Edit, T.map Edit.seg = q ∧ T.map Edit.vals = q.map (fun sg => valsOf sg ids) ∧
      (∀ t ∈ T, (t.vals = [] → t.new = t.seg) ∧ (t.vals ≠ [] → t.seg.delete t.vals = some t.new)) ∧
      (∀ t ∈ T, t.new.Good ∧ t.new.iter = t.seg.iter.filter (fun x => !ids.contains x)) := by
  induction q with
  | nil => exact ⟨[], rfl, rfl, by simp, by simp⟩
  | cons sg q ih =>
    obtain ⟨T, h1, h2, h3, h4⟩ := ih (fun s hs => hq s (List.mem_cons_of_mem _ hs))
    obtain ⟨hg, hs⟩ := hq sg List.mem_cons_self
    have hf : sg.iter.filter (fun x => !(valsOf sg ids).contains x) = sg.iter.filter (fun x => !ids.contains x) := by
      apply List.filter_congr
      intro x hx
      have : (valsOf sg ids).contains x = ids.contains x := by
        rw [Bool.eq_iff_iff, List.contains_iff_mem, List.contains_iff_mem, mem_valsOf]
        exact ⟨fun h => h.1, fun h => ⟨h, hx⟩⟩
      rw [this]
    obtain ⟨new, hn1, hn2⟩ : ∃ new : Seg, ((valsOf sg ids = [] → new = sg) ∧ (valsOf sg ids ≠ [] →
        sg.delete (valsOf sg ids) = some new)) ∧ new.Good ∧ new.iter = sg.iter.filter (fun x => !ids.contains x) := by
      by_cases hv : valsOf sg ids = []
      · refine ⟨sg, ⟨fun _ => rfl, fun h => absurd hv h⟩, hg, ?_⟩
        rw [← hf, hv]
        exact (List.filter_eq_self.2 (fun _ _ => rfl)).symm
      · obtain ⟨new, d1, d2, d3⟩ := Seg.delete_good sg hg.1 hs _ (valsOf_sublist sg ids hn)
        exact ⟨new, ⟨fun h => absurd h hv, fun _ => d1⟩, d2, by rw [d3, hf]⟩
    refine ⟨⟨sg, valsOf sg ids, new⟩ :: T, by simp [h1], by simp [h2], ?_, ?_⟩
    · intro t ht
      rcases List.mem_cons.1 ht with rfl | ht
      · exact hn1
      · exact h3 t ht
    · intro t ht
      rcases List.mem_cons.1 ht with rfl | ht
      · exact hn2
      · exact h4 t ht

theorem flatMap_zip_gets (q : Seq) (ids : List Nat) (hq : ∀ sg ∈ q, sg.WF) :
    sequence ((q.zip (q.map (fun sg => posOf sg ids))).flatMap (fun p => p.2.map p.1.get)) =
      some (q.flatMap (fun sg => valsOf sg ids)) := by
  induction q with
  | nil => rfl
  | cons sg q ih =>
    simp only [List.map_cons, List.zip_cons_cons, List.flatMap_cons]
    apply sequence_append
    · rw [valsOf]
      apply sequence_map_some
      intro i hi
      have hlt := posOf_lt sg ids i hi
      rw [Seg.get_eq sg (hq sg List.mem_cons_self), List.getElem?_eq_getElem hlt]
      simp [List.getElem?_eq_getElem hlt]
    · exact ih (fun s hs => hq s (List.mem_cons_of_mem _ hs))

theorem delete_spec (q : Seq) (ids : List Nat) (hn : ids.Nodup) (hq : ∀ sg ∈ q, sg.Good ∧ Small sg.iter) :
    ∃ q', delete q ids = some q' ∧ (∀ sg ∈ q', sg.Good) ∧ iter q' = (iter q).filter (fun x => !ids.contains x) := by
  obtain ⟨T, h1, h2, h3, h4⟩ := choose_edits q ids hn hq
  have hfind : findIds q ids = some (q.flatMap (fun sg => valsOf sg ids), rangesFrom 0 0 (T.map Edit.vals)) := by
    unfold findIds
    rw [sequence_map_some q _ (fun sg => (ids.filter (fun v => sg.iter.contains v)).map sg.iter.idxOf)
      (fun sg hsg => matchesIn_spec sg (hq sg hsg).1 ids)]
    simp only [List.map_map]
    have e : (q.map ((fun m : List Nat => sortBy id m) ∘
        fun sg => (ids.filter (fun v => sg.iter.contains v)).map sg.iter.idxOf)) = q.map (fun sg => posOf sg ids) := rfl
    rw [e, flatMap_zip_gets q ids (fun sg hsg => (hq sg hsg).1.1)]
    simp only
    rw [rangesFrom_congr 0 0 (q.map (fun sg => posOf sg ids)) (T.map Edit.vals) (by
      rw [h2]; simp [valsOf])]
  have hrow : (q.flatMap (fun sg => valsOf sg ids)).drop 0 = T.flatMap Edit.vals := by
    rw [List.drop_zero, List.flatMap_def, List.flatMap_def, ← h2]
  obtain ⟨a, r, d1, d2⟩ := deleteLoop_spec q.length (q.flatMap (fun sg => valsOf sg ids)) T [] [] 0 0 0
    rfl (by rw [← h1]; simp) hrow h3
  refine ⟨T.map Edit.new, ?_, ?_, ?_⟩
  · unfold delete
    rw [hfind]
    simp only
    rw [List.nil_append, h1] at d1
    rw [d1]
    simpa using d2
  · intro sg hsg
    obtain ⟨t, ht, rfl⟩ := List.mem_map.1 hsg
    exact (h4 t ht).1
  · rw [← h1]
    clear d1 d2 hrow hfind h1 h2 h3 hq
    induction T with
    | nil => rfl
    | cons t T ih =>
      simp only [List.map_cons, iter_cons, List.filter_append]
      rw [(h4 t List.mem_cons_self).2, ih (fun x hx => h4 x (List.mem_cons_of_mem _ hx))]

end Seq
end Verif.RowIds
