import Verif.Prefilter.Model
import Verif.RowSet.Props
import Verif.RowIds.PropsSequence
import Verif.Deletion.Lemmas

/-! # Helper lemmas for the deletion prefilter -/
namespace Verif.Prefilter
open Verif
open Verif.RowSet (TreeMap Mask Sel noFull memAt contains)
open Verif.Deletion (DV)
open Verif.RowIds (Seg)
open Verif.RowIds.Seq (gap Convertible)

/-! ## No operation that builds a set of row ids selects a whole fragment -/

theorem noFull_nil : noFull [] := by intro f; simp [SMap.get]

theorem noFull_part (m : TreeMap) (h : noFull m) (k : Nat) (s : Bm) : noFull (SMap.insert k (.part s) m) := by
  intro f
  rw [SMap.get_insert]
  split
  · simp
  · exact h f

theorem noFull_erase (m : TreeMap) (h : noFull m) (k : Nat) : noFull (SMap.erase k m) := by
  intro f
  rw [SMap.get_erase]
  split
  · simp
  · exact h f

theorem noFull_insert (m : TreeMap) (h : noFull m) (v : Nat) : noFull (RowSet.insert m v) := by
  unfold RowSet.insert
  split
  · exact noFull_part m h _ _
  · exact h
  · exact noFull_part m h _ _

theorem noFull_insertRangeLoop (n : Nat) (m : TreeMap) (h : noFull m) (a b c d : Nat) :
    noFull (RowSet.insertRangeLoop n m a b c d) := by
  induction n generalizing m a b with
  | zero => exact h
  | succ n ih =>
    unfold RowSet.insertRangeLoop
    apply ih
    unfold RowSet.insertRangeBody
    split
    · exact noFull_part m h _ _
    · exact h
    · exact noFull_part m h _ _

theorem noFull_insertRange (m m' : TreeMap) (h : noFull m) (lo hi : RowSet.Bound)
    (e : RowSet.insertRange m lo hi = some m') : noFull m' := by
  unfold RowSet.insertRange at e
  simp only at e
  split at e
  · cases e
  · cases e
    exact noFull_insertRangeLoop _ m h _ _ _ _

theorem noFull_remove (m : TreeMap) (h : noFull m) (v : Nat) : noFull (RowSet.remove m v) := by
  unfold RowSet.remove
  split
  · exact h
  · exact noFull_part m h _ _
  · simp only
    split
    · exact noFull_erase m h _
    · exact noFull_part m h _ _

theorem noFull_foldl {α : Type} (f : TreeMap → α → TreeMap) (hf : ∀ m a, noFull m → noFull (f m a)) (l : List α) (m : TreeMap)
    (h : noFull m) : noFull (l.foldl f m) := by
  induction l generalizing m with
  | nil => exact h
  | cons a l ih => exact ih _ (hf m a h)

theorem noFull_addSeg (m m' : TreeMap) (h : noFull m) (sg : Seg) (e : RowIds.Seq.addSeg m sg = some m') : noFull m' := by
  cases sg with
  | range s t => exact noFull_insertRange m m' h _ _ e
  | holes s t hs =>
    simp only [RowIds.Seq.addSeg] at e
    cases hr : RowSet.insertRange m (.incl s) (.excl t) with
    | none => rw [hr] at e; cases e
    | some m1 =>
      rw [hr] at e
      cases e
      exact noFull_foldl _ (fun m a h => noFull_remove m h a) _ _ (noFull_insertRange m m1 h _ _ hr)
  | bitmap s t b =>
    simp only [RowIds.Seq.addSeg] at e
    cases hr : RowSet.insertRange m (.incl s) (.excl t) with
    | none => rw [hr] at e; cases e
    | some m1 =>
      rw [hr] at e
      cases e
      apply noFull_foldl _ _ _ _ (noFull_insertRange m m1 h _ _ hr)
      intro m a h
      split
      · exact h
      · exact noFull_remove m h a
  | sorted a =>
    cases e
    exact noFull_foldl _ (fun m a h => noFull_insert m h a) _ _ h
  | array a =>
    cases e
    exact noFull_foldl _ (fun m a h => noFull_insert m h a) _ _ h

theorem toTreeMap_shape (q : RowIds.Seq) (hq : ∀ sg ∈ q, Convertible sg) (m m' : TreeMap) (hm : SMap.Sorted m) (hf : noFull m)
    (e : q.foldl (fun m sg => m.bind (fun m => RowIds.Seq.addSeg m sg)) (some m) = some m') :
    SMap.Sorted m' ∧ noFull m' := by
  induction q generalizing m with
  | nil => cases e; exact ⟨hm, hf⟩
  | cons sg q ih =>
    obtain ⟨m1, h1, h2, _⟩ := RowIds.Seq.addSeg_spec m hm sg (hq sg List.mem_cons_self) (fun w => contains m w = true) (fun _ _ => Iff.rfl)
    rw [List.foldl_cons, Option.bind_some, h1] at e
    exact ih (fun s hs => hq s (List.mem_cons_of_mem _ hs)) m1 h2 (noFull_addSeg m m1 hf sg h1) e

/-! ## Masking a sequence keeps it convertible -/

/-- `v` lies inside the hull of the segment. -/
def InHull (sg : Seg) (v : Nat) : Prop := gap sg v ∨ ∃ x ∈ sg.iter, ∃ y ∈ sg.iter, x ≤ v ∧ v ≤ y

/-- Ends of the ranges of a segment lie between two ids. -/
def Within (sg : Seg) (mn mx : Nat) : Prop :=
  match sg with
  | .range s e => mn ≤ s ∧ e ≤ mx + 1
  | .holes s e _ => mn ≤ s ∧ e ≤ mx + 1
  | .bitmap s e _ => mn ≤ s ∧ e ≤ mx + 1
  | _ => True

theorem fromStats_within (st : RowIds.Stats) (l : List Nat) (sg : Seg) (h : Seg.fromStats st l = some sg) :
    sg = .range 0 0 ∨ Within sg st.min st.max := by
  unfold Seg.fromStats at h
  split at h
  · cases hn : st.nHoles with
    | none => rw [hn] at h; cases h
    | some n =>
      rw [hn] at h
      simp only at h
      split at h
      · cases h; exact Or.inl rfl
      · right
        split at h
        · split at h
          · cases h; exact ⟨Nat.le_refl _, Nat.le_refl _⟩
          · cases h
        · cases hs : Seg.sizes st with
          | none => rw [hs] at h; cases h
          | some t =>
            obtain ⟨a, b, c⟩ := t
            rw [hs] at h
            simp only at h
            split at h
            · split at h
              · cases h; exact ⟨Nat.le_refl _, Nat.le_refl _⟩
              · cases h
            · split at h
              · split at h
                · cases hc : Seg.clearAll st.min (Seg.holesInSlice st.min st.max l) (RowIds.Bitmap.newFull (st.max - st.min + 1)) with
                  | none => rw [hc] at h; cases h
                  | some b =>
                    rw [hc] at h
                    cases h
                    exact ⟨Nat.le_refl _, Nat.le_refl _⟩
                · cases h
              · cases h; trivial
  · cases h; exact Or.inr trivial

theorem mask_within (sg sg' : Seg) (hwf : sg.WF) (ps : List Nat) (h : sg.mask ps = some sg') :
    sg' = sg ∨ sg' = .range 0 0 ∨ ∃ mn ∈ sg.iter, ∃ mx ∈ sg.iter, Within sg' mn mx := by
  unfold Seg.mask at h
  split at h
  · cases h; exact Or.inl rfl
  · split at h
    · cases h; exact Or.inr (Or.inl rfl)
    · split at h
      · cases h
      · cases h1 : Seg.firstDiff ps (List.range sg.len) 0 with
        | none => rw [h1] at h; cases h
        | some f =>
          cases h2 : Seg.firstDiff ps.reverse (List.range sg.len).reverse 0 with
          | none => rw [h1, h2] at h; cases h
          | some l =>
            rw [h1, h2] at h
            simp only at h
            cases h3 : sg.get f with
            | none => rw [h3] at h; cases h
            | some mn =>
              cases h4 : sg.get l with
              | none => rw [h3, h4] at h; cases h
              | some mx =>
                rw [h3, h4] at h
                simp only at h
                rw [Seg.get_eq sg hwf] at h3 h4
                rcases fromStats_within _ _ _ h with e | e
                · exact Or.inr (Or.inl e)
                · exact Or.inr (Or.inr ⟨mn, List.mem_of_getElem? h3, mx, List.mem_of_getElem? h4, e⟩)

/-- What masking leaves of a segment. -/
structure Kept (sg sg' : Seg) : Prop where
  good : sg'.Good
  sub : ∀ v ∈ sg'.iter, v ∈ sg.iter
  shape : sg' = sg ∨ sg' = .range 0 0 ∨ ∃ mn ∈ sg.iter, ∃ mx ∈ sg.iter, Within sg' mn mx

theorem Kept.hull {sg sg' : Seg} (h : Kept sg sg') (v : Nat) (hv : InHull sg' v) : InHull sg v := by
  rcases hv with hg | ⟨x, hx, y, hy, h1, h2⟩
  · rcases h.shape with e | e | ⟨mn, hmn, mx, hmx, hw⟩
    · rw [e] at hg; exact Or.inl hg
    · rw [e] at hg; exact hg.elim
    · refine Or.inr ⟨mn, hmn, mx, hmx, ?_⟩
      cases sg' with
      | range s e => exact hg.elim
      | holes s e b =>
        obtain ⟨g1, g2, _⟩ := hg
        obtain ⟨w1, w2⟩ := hw
        omega
      | bitmap s e b =>
        obtain ⟨g1, g2, _⟩ := hg
        obtain ⟨w1, w2⟩ := hw
        omega
      | sorted a => exact hg.elim
      | array a => exact hg.elim
  · exact Or.inr ⟨x, h.sub x hx, y, h.sub y hy, h1, h2⟩

theorem Kept.convertible {sg sg' : Seg} (h : Kept sg sg') (hc : Convertible sg) (hne : sg'.iter ≠ [])
    (hb : ∀ v ∈ sg.iter, v < 4294967295 * 4294967296) : Convertible sg' := by
  rcases h.shape with e | e | ⟨mn, hmn, mx, hmx, hw⟩
  · rw [e]; exact hc
  · rw [e] at hne; exact absurd rfl hne
  · have hx := hb mx hmx
    refine ⟨h.good.1, ?_, ?_⟩
    · intro s e he
      subst he
      intro h0
      apply hne
      simp [Seg.iter, h0]
    · cases sg' with
      | range s e => exact Nat.le_trans hw.2 hx
      | holes s e b => exact Nat.le_trans hw.2 hx
      | bitmap s e b => exact Nat.le_trans hw.2 hx
      | sorted a =>
        intro v hv
        have := hb v (h.sub v hv)
        show v < 2 ^ 64
        omega
      | array a =>
        intro v hv
        have := hb v (h.sub v hv)
        show v < 2 ^ 64
        omega

theorem maskLoop_kept (q : RowIds.Seq) (hq : ∀ sg ∈ q, sg.Good ∧ RowIds.Seg.Small sg.iter) (ps : List Nat) (c : Nat)
    (hinc : ps.Pairwise (· < ·)) (hb : ∀ p ∈ ps, c ≤ p ∧ p < c + (RowIds.Seq.iter q).length)
    (hlen : c + (RowIds.Seq.iter q).length < 4294967296)
    (hp : q.Pairwise (fun a b => ∀ v ∈ a.iter, ¬ InHull b v)) :
    ∃ q', RowIds.Seq.maskLoop q ps c c = some q' ∧ (∀ sg' ∈ q', ∃ sg ∈ q, Kept sg sg') ∧
      q'.Pairwise (fun a b => ∀ v ∈ a.iter, ¬ InHull b v) := by
  induction q generalizing ps c with
  | nil => exact ⟨[], rfl, by simp, List.Pairwise.nil⟩
  | cons sg q ih =>
    obtain ⟨hg, hs⟩ := hq sg List.mem_cons_self
    rw [RowIds.Seq.iter_cons, List.length_append] at hb hlen
    have hl := Seg.len_eq sg hg.1
    obtain ⟨ht, hd⟩ := RowIds.Seq.inc_takeWhile ps hinc (c + sg.iter.length)
    unfold RowIds.Seq.maskLoop
    simp only [hl, Nat.mod_eq_of_lt (show sg.iter.length < 4294967296 by omega)]
    rw [if_neg (by omega), ht, hd]
    have hany : ((ps.filter (fun p => decide (p < c + sg.iter.length))).any (fun p => decide (p < c))) = false := by
      rw [List.any_eq_false]
      intro p hp
      have := hb p (List.mem_filter.1 hp).1
      simp; omega
    rw [hany]
    simp only [Bool.false_eq_true, if_false]
    have hloc_inc : ((ps.filter (fun p => decide (p < c + sg.iter.length))).map (fun p => p - c)).Pairwise (· < ·) := by
      rw [List.pairwise_map]
      apply List.Pairwise.imp_of_mem _ (hinc.filter _)
      intro a b ha hb' hab
      have h1 := hb a (List.mem_filter.1 ha).1
      have h2 := hb b (List.mem_filter.1 hb').1
      omega
    have hloc_b : ∀ p ∈ (ps.filter (fun p => decide (p < c + sg.iter.length))).map (fun p => p - c),
        p < sg.iter.length := by
      intro p hp
      obtain ⟨r, hr, rfl⟩ := List.mem_map.1 hp
      rw [List.mem_filter] at hr
      have h1 := hb r hr.1
      have h2 := hr.2
      simp at h2
      omega
    obtain ⟨sg', m1, m2, m3⟩ := Seg.mask_good sg hg hs _ hloc_inc hloc_b (by omega)
    have hbranch : (if ((ps.filter (fun p => decide (p < c + sg.iter.length))).map (fun p => p - c)).isEmpty = true
        then some sg else sg.mask ((ps.filter (fun p => decide (p < c + sg.iter.length))).map (fun p => p - c)))
        = some sg' := by
      split
      · rename_i he
        rw [← m1]
        unfold Seg.mask
        rw [if_pos he]
      · exact m1
    rw [hbranch]
    obtain ⟨q', q1, q2, q3⟩ := ih (fun s hs => hq s (List.mem_cons_of_mem _ hs))
      (ps.filter (fun p => decide (c + sg.iter.length ≤ p))) (c + sg.iter.length) (hinc.filter _)
      (by
        intro p hp
        rw [List.mem_filter] at hp
        have h1 := hb p hp.1
        have h2 := hp.2
        simp at h2
        omega) (by omega) (List.pairwise_cons.mp hp).2
    have hk : Kept sg sg' := by
      refine ⟨m2, ?_, mask_within sg sg' hg.1 _ m1⟩
      intro v hv
      rw [m3] at hv
      unfold RowIds.Seg.dropAt at hv
      rw [List.mem_filterMap] at hv
      obtain ⟨j, _, hj⟩ := hv
      exact List.mem_of_getElem? hj
    simp only
    rw [q1]
    refine ⟨sg' :: q', rfl, ?_, ?_⟩
    · intro s hs
      rcases List.mem_cons.1 hs with rfl | hs
      · exact ⟨sg, List.mem_cons_self, hk⟩
      · obtain ⟨b, hb1, hb2⟩ := q2 s hs
        exact ⟨b, List.mem_cons_of_mem _ hb1, hb2⟩
    · refine List.pairwise_cons.mpr ⟨?_, q3⟩
      intro b' hb' v hv hh
      obtain ⟨b, hb1, hb2⟩ := q2 b' hb'
      exact (List.pairwise_cons.mp hp).1 b hb1 v (hk.sub v hv) (hb2.hull v hh)

end Verif.Prefilter
