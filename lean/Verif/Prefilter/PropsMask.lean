import Verif.Prefilter.Lemmas

/-!
# C45: deleted rows never come back through an index
-/
namespace Verif.Prefilter
open Verif
open Verif.RowSet (TreeMap Mask noFull memAt contains selected maskAnd newFromParts fragmentId rowOffset maskSorted)
open Verif.Deletion (DV)
open Verif.RowIds (Seg)
open Verif.RowIds.Seq (gap Convertible)

/-- Does the prefilter let a row (given by address or row id) pass? -/
def passes (d : Deletions) (v : Nat) : Bool :=
  match d with
  | .none => true
  | .mask m => selected m v
  | .panic => false

/-- The row at an address is in the dataset and not deleted. -/
def LiveAddr (frags : List PFrag) (a : Nat) : Prop :=
  ∃ f ∈ frags, f.id = fragmentId a ∧ (∀ d, f.dv = some d → d.contains (rowOffset a) = false)

/-- The order in which the deletion vectors arrive. -/
def Arrival (frags : List PFrag) (coverage order : List Nat) : Prop := order.Perm (withDeletions frags coverage)

/-! ## Without stable row ids -/

theorem memAt_insertBitmaps (frags : List PFrag) (order : List Nat) (m : TreeMap) (f o : Nat) :
    memAt (order.foldl (fun m c => RowSet.insertBitmap m c (bitmapOf frags c)) m) f o = true ↔
      (f ∈ order ∧ o ∈ bitmapOf frags f) ∨ (f ∉ order ∧ memAt m f o = true) := by
  induction order generalizing m with
  | nil => simp
  | cons c cs ih =>
    rw [List.foldl_cons, ih, RowSet.memAt_insertBitmap]
    by_cases h1 : f = c
    · subst h1
      by_cases h2 : f ∈ cs <;> simp [h2]
    · by_cases h2 : f ∈ cs <;> simp [h1, h2]

theorem memAt_insertFragments (l : List Nat) (m : TreeMap) (f o : Nat) :
    memAt (l.foldl RowSet.insertFragment m) f o = true ↔ f ∈ l ∨ memAt m f o = true := by
  induction l generalizing m with
  | nil => simp
  | cons c cs ih =>
    rw [List.foldl_cons, ih, RowSet.memAt_insertFragment, List.mem_cons]
    constructor
    · rintro (h | h | h)
      · exact Or.inl (Or.inr h)
      · exact Or.inr h
      · exact Or.inl (Or.inl h)
    · rintro ((h | h) | h)
      · exact Or.inr (Or.inr h)
      · exact Or.inl h
      · exact Or.inr (Or.inl h)

/-- C45: without stable row ids, a row of a fragment covered by the index passes exactly if it is still
there, whatever the order in which deletion files are read. -/
theorem C45_addresses (frags : List PFrag) (hd : (frags.map (·.id)).Nodup) (coverage order : List Nat)
    (ho : Arrival frags coverage order) (a : Nat) (hc : fragmentId a ∈ coverage) :
    passes (deletionMask false frags coverage order) a = true ↔ LiveAddr frags a := by
  have huniq : ∀ f ∈ frags, ∀ g ∈ frags, f.id = g.id → f = g := by
    intro f hf g hg e
    clear ho
    induction frags with
    | nil => cases hf
    | cons x xs ih =>
      simp only [List.map_cons, List.nodup_cons] at hd
      rcases List.mem_cons.mp hf with h1 | h1 <;> rcases List.mem_cons.mp hg with h2 | h2
      · rw [h1, h2]
      · have := List.mem_map_of_mem (f := fun x : PFrag => x.id) h2
        rw [← e, h1] at this
        exact absurd this hd.1
      · have := List.mem_map_of_mem (f := fun x : PFrag => x.id) h1
        rw [e, h2] at this
        exact absurd this hd.1
      · exact ih hd.2 h1 h2
  have hmiss : fragmentId a ∈ missing frags coverage ↔ ∀ f ∈ frags, f.id ≠ fragmentId a := by
    unfold missing
    rw [List.mem_filter]
    simp [hc]
  have hwith : fragmentId a ∈ withDeletions frags coverage ↔ ∃ f ∈ frags, f.id = fragmentId a ∧ f.dv.isSome := by
    unfold withDeletions
    rw [List.mem_filter]
    simp [hc]
  have hbits : ∀ f ∈ frags, f.id = fragmentId a → bitmapOf frags (fragmentId a) = (f.dv.map DV.sortedIter).getD [] := by
    intro f hf e
    unfold bitmapOf
    have : frags.find? (fun f => f.id == fragmentId a) = some f := by
      cases h : frags.find? (fun f => f.id == fragmentId a) with
      | none => rw [List.find?_eq_none] at h; exact absurd (by simpa using e) (h f hf)
      | some g =>
        have h1 := List.find?_some h
        have h2 := List.mem_of_find?_eq_some h
        rw [huniq g h2 f hf (by rw [e]; simpa using h1)]
    rw [this]
    cases hdv : f.dv <;> simp [hdv]
  unfold deletionMask
  split
  · rename_i hempty
    simp only [Bool.and_eq_true, List.isEmpty_iff] at hempty
    simp only [passes, true_iff]
    rw [hempty.1] at hmiss
    rw [hempty.2] at hwith
    have hex : ∃ f ∈ frags, f.id = fragmentId a := by
      apply Classical.byContradiction
      intro h
      have := hmiss.mpr (fun f hf e => h ⟨f, hf, e⟩)
      cases this
    obtain ⟨f, hf, e⟩ := hex
    refine ⟨f, hf, e, fun d hdv => ?_⟩
    have := hwith.mpr ⟨f, hf, e, by rw [hdv]; rfl⟩
    cases this
  · simp only [Bool.false_eq_true, if_false, passes, selected, blockMask]
    rw [Bool.not_eq_true', ← Bool.not_eq_true, RowSet.contains_eq, memAt_insertFragments, memAt_insertBitmaps,
      hmiss, show fragmentId a ∈ order ↔ _ from ho.mem_iff, hwith]
    have hz : ¬ memAt ([] : TreeMap) (fragmentId a) (rowOffset a) = true := by
      simp [memAt, SMap.get, RowSet.selHas]
    simp only [hz, and_false, or_false, Bool.false_eq_true]
    constructor
    · intro hn
      have hex : ∃ f ∈ frags, f.id = fragmentId a := by
        apply Classical.byContradiction
        intro h
        exact hn (Or.inl (fun f hf e => h ⟨f, hf, e⟩))
      obtain ⟨f, hf, e⟩ := hex
      refine ⟨f, hf, e, fun d hdv => ?_⟩
      cases hcon : d.contains (rowOffset a) with
      | false => rfl
      | true =>
        exfalso
        apply hn
        right
        refine ⟨⟨f, hf, e, by rw [hdv]; rfl⟩, ?_⟩
        rw [hbits f hf e, hdv]
        exact (Deletion.mem_sortedIter d _).mpr hcon
    · rintro ⟨f, hf, e, hlive⟩ (h | ⟨_, h⟩)
      · exact h f hf e
      · rw [hbits f hf e] at h
        cases hdv : f.dv with
        | none => rw [hdv] at h; cases h
        | some d =>
          rw [hdv] at h
          have := (Deletion.mem_sortedIter d _).mp h
          rw [hlive d hdv] at this
          cases this

/-- Three fragments: 0 without, 2 with deletions; 1 was dropped. -/
def sample : List PFrag := [⟨0, none, []⟩, ⟨2, some (.set [4, 1]), []⟩]

example : [newFromParts 0 7, newFromParts 1 0, newFromParts 2 1, newFromParts 2 2].map
    (passes (deletionMask false sample [0, 1, 2] [2])) = [true, false, false, true] := by decide +kernel
example : Arrival sample [0, 1, 2] [2] := List.Perm.refl _

/-- C45, for indices written before fragment bitmaps existed: every row of the dataset counts as covered. -/
def C45_legacy_statement : Prop :=
  ∀ (frags : List PFrag) (max : Nat) (order : List Nat) (a : Nat), (frags.map (·.id)).Nodup → (∀ f ∈ frags, f.id ≤ max) →
    Arrival frags (indexFragments [none] max) order → fragmentId a ≤ max →
    (passes (deletionMask false frags (indexFragments [none] max) order) a = true ↔ LiveAddr frags a)

/-- It fails: the fragment with the largest id is left out, so that its deleted rows pass. -/
theorem C45_legacy_violated : ¬ C45_legacy_statement := by
  intro h
  have := (h sample 2 [] (newFromParts 2 1) (by decide) (by decide) (List.Perm.refl _) (by decide)).mp (by decide +kernel)
  obtain ⟨f, hf, e, hl⟩ := this
  simp only [sample, List.mem_cons, List.not_mem_nil, or_false] at hf
  rcases hf with rfl | rfl
  · revert e; decide
  · have := hl _ rfl
    revert this
    decide

/-- C45: for such an index, rows of fragments with a smaller id are treated rightly. -/
theorem C45_legacy_partial (frags : List PFrag) (hd : (frags.map (·.id)).Nodup) (bitmaps : List (Option (List Nat)))
    (hb : none ∈ bitmaps) (max : Nat) (order : List Nat)
    (ho : Arrival frags (indexFragments bitmaps max) order) (a : Nat) (hc : fragmentId a < max) :
    passes (deletionMask false frags (indexFragments bitmaps max) order) a = true ↔ LiveAddr frags a := by
  apply C45_addresses frags hd _ order ho
  unfold indexFragments
  rw [if_pos (by rw [List.any_eq_true]; exact ⟨none, hb, rfl⟩)]
  simpa using hc

/-- C45: with fragment bitmaps, rows of a fragment covered by any of the indices are treated rightly. -/
theorem C45_bitmaps (frags : List PFrag) (hd : (frags.map (·.id)).Nodup) (bitmaps : List (List Nat)) (max : Nat)
    (order : List Nat) (ho : Arrival frags (indexFragments (bitmaps.map some) max) order) (a : Nat)
    (hc : ∃ b ∈ bitmaps, fragmentId a ∈ b) :
    passes (deletionMask false frags (indexFragments (bitmaps.map some) max) order) a = true ↔ LiveAddr frags a := by
  apply C45_addresses frags hd _ order ho
  unfold indexFragments
  rw [if_neg (by simp)]
  obtain ⟨b, hb, hm⟩ := hc
  rw [List.mem_flatMap]
  exact ⟨some b, List.mem_map_of_mem hb, hm⟩

/-! ## With stable row ids -/

/-- The row with this id is in the dataset and not deleted. -/
def LiveId (frags : List PFrag) (v : Nat) : Prop :=
  ∃ f ∈ frags, ∃ o, (RowIds.Seq.iter f.seq)[o]? = some v ∧ ∀ d, f.dv = some d → d.contains o = false

/-- Fragments as they can be read: sequences that the conversion to a row set handles (ids of earlier
segments are not inside the hull of later ones), deleted offsets inside. -/
structure FragOK (f : PFrag) : Prop where
  good : ∀ sg ∈ f.seq, sg.Good ∧ RowIds.Seg.Small sg.iter
  conv : ∀ sg ∈ f.seq, Convertible sg
  ids : ∀ sg ∈ f.seq, ∀ v ∈ sg.iter, v < 4294967295 * 4294967296
  apart : f.seq.Pairwise (fun a b => ∀ v ∈ a.iter, ¬ InHull b v)
  rows : (RowIds.Seq.iter f.seq).length < 4294967296
  dv : ∀ d, f.dv = some d → d.WF ∧ ∀ o, d.contains o = true → o < (RowIds.Seq.iter f.seq).length

/-- C45, stable row ids: an id that is in the index passes exactly if its row is live. -/
def C45_row_ids_statement : Prop :=
  ∀ (frags : List PFrag) (coverage order : List Nat) (v : Nat), (∀ f ∈ frags, FragOK f) → v < 2 ^ 64 →
    (∃ c ∈ coverage, ∀ f ∈ frags, f.id = c → v ∈ RowIds.Seq.iter f.seq) →
    (passes (deletionMask true frags coverage order) v = true ↔ LiveId frags v)

/-- Ten rows with ids 100 to 109; rows 3 and 1 are deleted, and the hash set is iterated in this order. -/
def hashed : PFrag := ⟨0, some (.set [3, 1]), [.range 100 110]⟩

theorem hashed_ok : FragOK hashed := by
  have hmem : ∀ sg ∈ hashed.seq, sg = .range 100 110 := by intro sg h; simpa [hashed] using h
  refine ⟨?_, ?_, ?_, ?_, ?_, ?_⟩
  · intro sg h
    rw [hmem sg h]
    refine ⟨⟨by simp [Seg.WF], fun _ => ⟨_, _, rfl⟩⟩, ?_, ?_⟩
    · intro x hx; simp [Seg.iter, List.mem_range'_1] at hx; omega
    · intro x hx y hy; simp [Seg.iter, List.mem_range'_1] at hx hy; omega
  · intro sg h
    rw [hmem sg h]
    refine ⟨by simp [Seg.WF], ?_, ?_⟩
    · intro s e he; cases he; decide
    · decide
  · intro sg h v hv
    rw [hmem sg h] at hv
    simp [Seg.iter, List.mem_range'_1] at hv
    omega
  · exact List.pairwise_singleton _ _
  · decide
  · intro d hd
    cases hd
    refine ⟨by simp [DV.WF], ?_⟩
    intro o ho
    simp only [DV.contains, List.contains_eq_mem, decide_eq_true_eq, List.mem_cons, List.not_mem_nil, or_false] at ho
    have : (RowIds.Seq.iter hashed.seq).length = 10 := by decide
    omega

/-- It fails: `mask` needs increasing positions, but a hash set is iterated in any order, and row 101, which
is deleted, passes. -/
theorem C45_hash_order_violated : ¬ C45_row_ids_statement := by
  intro h
  have := (h [hashed] [0] [] 101 (by intro f hf; simp at hf; rw [hf]; exact hashed_ok) (by decide) ⟨0, by simp, by
    intro f hf _
    simp at hf
    rw [hf]
    decide⟩).mp (by decide +kernel)
  obtain ⟨f, hf, o, h1, h2⟩ := this
  simp at hf
  subst hf
  have h3 := h2 _ rfl
  have ho : o = 1 := by
    have e : RowIds.Seq.iter hashed.seq = List.range' 100 10 := by decide
    rw [e] at h1
    have hlt : o < 10 := by
      have := (List.getElem?_eq_some_iff.mp h1).1
      simpa using this
    rw [List.getElem?_range' hlt] at h1
    simp only [Option.some.injEq] at h1
    omega
  rw [ho] at h3
  revert h3
  decide

theorem liveSet_spec (f : PFrag) (hf : FragOK f) (hsorted : ∀ d, f.dv = some d → (dvIter d).Pairwise (· < ·)) :
    ∃ m, liveSet f = some m ∧ SMap.Sorted m ∧ noFull m ∧ ∀ w, w < 2 ^ 64 → (contains m w = true ↔
      ∃ o : Nat, (RowIds.Seq.iter f.seq)[o]? = some w ∧ ∀ d, f.dv = some d → d.contains o = false) := by
  unfold liveSet
  cases hdv : f.dv with
  | none =>
    obtain ⟨m, h1, h2⟩ := RowIds.Seq.C12_row_set_partial f.seq hf.conv (hf.apart.imp (fun {a b} h v hv hg => h v hv (Or.inl hg)))
    obtain ⟨h3, h4⟩ := toTreeMap_shape f.seq hf.conv [] m SMap.sorted_nil noFull_nil h1
    refine ⟨m, h1, h3, h4, fun w hw => ?_⟩
    rw [h2 w hw, List.mem_iff_getElem?]
    simp
  | some d =>
    obtain ⟨hw, hin⟩ := hf.dv d hdv
    have hsort := hsorted d hdv
    have hmem : ∀ o, o ∈ dvIter d ↔ d.contains o = true := by
      intro o
      cases d <;> simp [dvIter, DV.contains]
    have hb : ∀ p ∈ dvIter d, p < (RowIds.Seq.iter f.seq).length := fun p hp => hin p ((hmem p).mp hp)
    obtain ⟨q', k1, k2, k3⟩ := maskLoop_kept f.seq hf.good (dvIter d) 0 hsort (fun p hp => ⟨Nat.zero_le _, by have := hb p hp; omega⟩)
      (by have := hf.rows; omega) hf.apart
    obtain ⟨q, c1, c2, c3⟩ := RowIds.Seq.C12_mask f.seq hf.good (dvIter d) hsort hb hf.rows
    have hqq : q = q'.filter (fun sg => sg.len != 0) := by
      have h := c1
      unfold RowIds.Seq.mask at h
      rw [k1] at h
      exact (Option.some.inj h).symm
    have hconv : ∀ sg ∈ q, Convertible sg := by
      intro sg hsg
      have hsg' := hsg
      rw [hqq] at hsg'
      obtain ⟨sg0, h1, h2⟩ := k2 sg (List.mem_filter.mp hsg').1
      exact h2.convertible (hf.conv sg0 h1) (c3 sg hsg).2 (hf.ids sg0 h1)
    obtain ⟨m, h1, h2⟩ := RowIds.Seq.C12_row_set_partial q hconv (by
      rw [hqq]
      exact (k3.imp (fun {a b} h v hv hg => h v hv (Or.inl hg))).filter _)
    obtain ⟨h3, h4⟩ := toTreeMap_shape q hconv [] m SMap.sorted_nil noFull_nil h1
    refine ⟨m, by simp only; rw [c1]; exact h1, h3, h4, fun w hw => ?_⟩
    rw [h2 w hw, c2]
    unfold RowIds.Seq.withoutPositions
    simp only [List.mem_map, List.mem_filter, Prod.exists, exists_and_right, exists_eq_right]
    constructor
    · rintro ⟨o, ho, hno⟩
      refine ⟨o, (List.mem_zipIdx_iff_getElem?.mp ho), ?_⟩
      intro d' e
      cases e
      cases hc : d.contains o with
      | false => rfl
      | true => rw [List.contains_iff_mem.mpr ((hmem o).mpr hc)] at hno; cases hno
    · rintro ⟨o, ho, hno⟩
      refine ⟨o, List.mem_zipIdx_iff_getElem?.mpr ho, ?_⟩
      have := hno d rfl
      rw [Bool.not_eq_true', ← Bool.not_eq_true]
      intro hc
      have := (hmem o).mp (List.contains_iff_mem.mp hc)
      rw [hno d rfl] at this
      cases this

theorem allowSets_spec (frags : List PFrag) (hf : ∀ f ∈ frags, FragOK f)
    (hs : ∀ f ∈ frags, ∀ d, f.dv = some d → (dvIter d).Pairwise (· < ·)) (m : TreeMap) :
    ∃ m', allowSets frags m = some m' ∧ ∀ w, w < 2 ^ 64 →
      (contains m' w = true ↔ contains m w = true ∨ LiveId frags w) := by
  induction frags generalizing m with
  | nil => exact ⟨m, rfl, fun w _ => by simp [LiveId]⟩
  | cons f fs ih =>
    obtain ⟨s, h1, h2, h3, h4⟩ := liveSet_spec f (hf f List.mem_cons_self) (hs f List.mem_cons_self)
    obtain ⟨m', i1, i2⟩ := ih (fun g hg => hf g (List.mem_cons_of_mem _ hg)) (fun g hg => hs g (List.mem_cons_of_mem _ hg))
      (RowSet.or m s)
    refine ⟨m', by unfold allowSets; rw [h1]; exact i1, fun w hw => ?_⟩
    rw [i2 w hw, RowSet.contains_eq, RowSet.memAt_or m s h2 _ _ (fun _ _ => h3 _), ← RowSet.contains_eq, ← RowSet.contains_eq,
      h4 w hw]
    unfold LiveId
    constructor
    · rintro ((h | ⟨o, h, h'⟩) | ⟨g, hg, h⟩)
      · exact Or.inl h
      · exact Or.inr ⟨f, List.mem_cons_self, o, h, h'⟩
      · exact Or.inr ⟨g, List.mem_cons_of_mem _ hg, h⟩
    · rintro (h | ⟨g, hg, h⟩)
      · exact Or.inl (Or.inl h)
      · rcases List.mem_cons.mp hg with rfl | hg
        · exact Or.inl (Or.inr h)
        · exact Or.inr ⟨g, hg, h⟩

/-- C45: with stable row ids, an id from a covered fragment passes exactly if its row is live, provided the
deleted offsets are iterated in increasing order (bitmaps always are, hash sets by luck) and the sequences
convert.  When a mask is made it is right for every id, covered or not. -/
theorem C45_row_ids_partial (frags : List PFrag) (hf : ∀ f ∈ frags, FragOK f)
    (hs : ∀ f ∈ frags, ∀ d, f.dv = some d → (dvIter d).Pairwise (· < ·))
    (coverage order : List Nat) (v : Nat) (hv : v < 2 ^ 64)
    (hc : (∃ c ∈ coverage, ∀ f ∈ frags, f.id = c → v ∈ RowIds.Seq.iter f.seq) ∨
      ∃ m, deletionMask true frags coverage order = .mask m) :
    passes (deletionMask true frags coverage order) v = true ↔ LiveId frags v := by
  obtain ⟨m, h1, h2⟩ := allowSets_spec frags hf hs []
  have hallow : allowMask frags = some ⟨some m, none⟩ := by unfold allowMask; rw [h1]; rfl
  unfold deletionMask at hc ⊢
  split
  · rename_i hempty
    rw [if_pos hempty] at hc
    simp only [Bool.and_eq_true, List.isEmpty_iff] at hempty
    simp only [passes, true_iff]
    rcases hc with ⟨c, hcc, hcf⟩ | ⟨_, h⟩
    · have hmiss : c ∉ missing frags coverage := by rw [hempty.1]; simp
      have hwith : c ∉ withDeletions frags coverage := by rw [hempty.2]; simp
      unfold missing at hmiss
      unfold withDeletions at hwith
      rw [List.mem_filter] at hmiss hwith
      simp only [hcc, true_and, Bool.not_eq_true, Bool.not_eq_false', List.any_eq_true, beq_iff_eq] at hmiss
      simp only [hcc, true_and] at hwith
      obtain ⟨f, hfm, e⟩ := hmiss
      obtain ⟨o, ho⟩ := List.mem_iff_getElem?.mp (hcf f hfm e)
      refine ⟨f, hfm, o, ho, ?_⟩
      intro d hd
      exfalso
      apply hwith
      rw [List.any_eq_true]
      exact ⟨f, hfm, by simp [e, hd]⟩
    · cases h
  · simp only [if_true, hallow, passes, selected]
    rw [h2 v hv]
    simp [contains, SMap.get]

/-- Two fragments with stable row ids, one of them with a deletion bitmap; fragment 5 is gone. -/
def stable : List PFrag := [⟨2, some (.bitmap [1, 3]), [.range 100 110]⟩, ⟨3, none, [.range 40 42]⟩]

theorem stable_ok : ∀ f ∈ stable, FragOK f := by
  intro f hf
  simp only [stable, List.mem_cons, List.not_mem_nil, or_false] at hf
  rcases hf with rfl | rfl
  · have h := hashed_ok
    refine ⟨h.good, h.conv, h.ids, h.apart, h.rows, ?_⟩
    intro d hd
    cases hd
    refine ⟨by simp [DV.WF, Bm.Sorted], ?_⟩
    intro o ho
    simp only [DV.contains, List.contains_eq_mem, decide_eq_true_eq, List.mem_cons, List.not_mem_nil, or_false] at ho
    show o < (RowIds.Seq.iter [Seg.range 100 110]).length
    have : (RowIds.Seq.iter [Seg.range 100 110]).length = 10 := by decide
    omega
  · refine ⟨?_, ?_, ?_, List.pairwise_singleton _ _, by decide, by intro d h; cases h⟩
    · intro sg h
      simp at h
      subst h
      refine ⟨⟨by simp [Seg.WF], fun _ => ⟨_, _, rfl⟩⟩, ?_, ?_⟩
      · intro x hx; simp [Seg.iter, List.mem_range'_1] at hx; omega
      · intro x hx y hy; simp [Seg.iter, List.mem_range'_1] at hx hy; omega
    · intro sg h
      simp at h
      subst h
      exact ⟨by simp [Seg.WF], by intro s e he; cases he; decide, by decide⟩
    · intro sg h v hv
      simp at h
      subst h
      simp [Seg.iter, List.mem_range'_1] at hv
      omega

example : [100, 101, 102, 103, 40, 7].map (passes (deletionMask true stable [2, 3, 5] [])) =
    [true, false, true, false, true, false] := by decide +kernel

/-! ## Together with the filter of the query -/

/-- C45: the combined mask lets a row pass exactly if both the filter and the deletions do. -/
def C45_final_statement : Prop :=
  ∀ (filter : Mask) (frags : List PFrag) (coverage order : List Nat) (m : Mask) (v : Nat), maskSorted filter →
    (frags.map (·.id)).Nodup → Arrival frags coverage order → deletionMask false frags coverage order = .mask m →
    selected (finalMask (some filter) (some m)) v = (selected filter v && selected m v)

/-- It fails: rows of a fragment that is gone come back if the filter blocks another row of it. -/
theorem C45_final_violated : ¬ C45_final_statement := by
  intro h
  have := h ⟨none, some [(1, .part [0])]⟩ sample [0, 1, 2] [2] _ (newFromParts 1 5)
    ⟨by simp, by intro b hb; cases hb; exact List.pairwise_singleton _ _⟩ (by decide) (List.Perm.refl _) rfl
  revert this
  decide +kernel

theorem maskAnd_default (f : Mask) (v : Nat) : selected (maskAnd ⟨none, none⟩ f) v = selected f v ∧
    maskAnd ⟨none, none⟩ f = f := by
  obtain ⟨a, b⟩ := f
  cases a <;> cases b <;> simp [maskAnd, selected]

/-- C45: what holds: both conditions are applied, except for rows of a fragment that the filter blocks
partly and the deletions block as a whole. -/
theorem C45_final_partial (filter m : Mask) (hf : maskSorted filter) (hm : maskSorted m) (v : Nat)
    (hx : ∀ a b, filter.block = some a → m.block = some b → ∀ l, SMap.get (fragmentId v) a = some (.part l) →
      SMap.get (fragmentId v) b ≠ some .full) :
    selected (finalMask (some filter) (some m)) v = (selected filter v && selected m v) := by
  unfold finalMask
  simp only
  rw [(maskAnd_default filter v).2]
  obtain ⟨la, lb⟩ := filter
  obtain ⟨ra, rb⟩ := m
  have hor : ∀ x y, lb = some x → rb = some y → contains (RowSet.or x y) v = (contains x v || contains y v) := by
    intro x y h1 h2
    have := RowSet.memAt_or x y (hm.2 y h2) (fragmentId v) (rowOffset v) (fun l hl => hx x y h1 h2 l hl)
    rw [RowSet.contains_eq, RowSet.contains_eq, RowSet.contains_eq, Bool.eq_iff_iff, this]; simp
  have hand : ∀ x y, la = some x → contains (RowSet.and x y) v = (contains x v && contains y v) := by
    intro x y h1
    have := RowSet.memAt_and x y (hf.1 x h1) (fragmentId v) (rowOffset v)
    rw [RowSet.contains_eq, RowSet.contains_eq, RowSet.contains_eq, Bool.eq_iff_iff, this]; simp
  cases la with
  | none =>
    cases ra with
    | none =>
      cases lb with
      | none => cases rb <;> simp [selected, maskAnd]
      | some x =>
        cases rb with
        | none => simp [selected, maskAnd]
        | some y => simp [selected, maskAnd, hor x y rfl rfl]
    | some c =>
      cases lb with
      | none => cases rb <;> simp [selected, maskAnd]
      | some x =>
        cases rb with
        | none => simp [selected, maskAnd, Bool.and_comm]
        | some y =>
          simp only [selected, maskAnd, hor x y rfl rfl]
          cases contains x v <;> cases contains y v <;> cases contains c v <;> rfl
  | some a =>
    cases ra with
    | none =>
      cases lb with
      | none => cases rb <;> simp [selected, maskAnd]
      | some x =>
        cases rb with
        | none => simp [selected, maskAnd]
        | some y =>
          simp only [selected, maskAnd, hor x y rfl rfl]
          cases contains x v <;> cases contains y v <;> cases contains a v <;> rfl
    | some c =>
      have ha := hand a c rfl
      cases lb with
      | none =>
        cases rb with
        | none => simp [selected, maskAnd, ha]
        | some y => simp [selected, maskAnd, ha, Bool.and_assoc]
      | some x =>
        cases rb with
        | none =>
          simp only [selected, maskAnd, ha]
          cases contains x v <;> cases contains a v <;> cases contains c v <;> rfl
        | some y =>
          simp only [selected, maskAnd, ha, hor x y rfl rfl]
          cases contains x v <;> cases contains y v <;> cases contains a v <;> cases contains c v <;> rfl

/-- C45: without a filter the deletions alone decide. -/
theorem C45_final_no_filter (m : Mask) (v : Nat) : selected (finalMask none (some m)) v = selected m v :=
  (maskAnd_default m v).1

/-- C45: a filter that is a list of row ids (as made from a plan) is always combined rightly. -/
theorem C45_final_allow_list (allow : TreeMap) (ha : SMap.Sorted allow) (m : Mask) (hm : maskSorted m) (v : Nat) :
    selected (finalMask (some ⟨some allow, none⟩) (some m)) v = (contains allow v && selected m v) := by
  rw [C45_final_partial ⟨some allow, none⟩ m ⟨by intro a h; cases h; exact ha, by intro b h; cases h⟩ hm v (by
    intro a b h; cases h)]
  rfl

theorem blockMask_sorted (frags : List PFrag) (miss order : List Nat) : maskSorted (blockMask frags miss order) := by
  constructor
  · intro a h
    cases h
  intro b h
  simp only [blockMask, Option.some.injEq] at h
  subst h
  have h1 : ∀ m : TreeMap, SMap.Sorted m →
      SMap.Sorted (order.foldl (fun m c => RowSet.insertBitmap m c (bitmapOf frags c)) m) := by
    intro m hm
    induction order generalizing m with
    | nil => exact hm
    | cons c cs ih => exact ih _ (SMap.sorted_insert _ _ _ hm)
  have h2 : ∀ m : TreeMap, SMap.Sorted m → SMap.Sorted (miss.foldl RowSet.insertFragment m) := by
    intro m hm
    induction miss generalizing m with
    | nil => exact hm
    | cons c cs ih => exact ih _ (SMap.sorted_insert _ _ _ hm)
  exact h2 _ (h1 _ SMap.sorted_nil)

/-- The deletion mask, if there is one. -/
def Deletions.mask? : Deletions → Option Mask
  | .mask m => some m
  | _ => Option.none

/-- C45: end to end without stable row ids: with a list of row ids as the filter of the query, a row of a
covered fragment passes exactly if it is in the list and live. -/
theorem C45_query (frags : List PFrag) (hd : (frags.map (·.id)).Nodup) (coverage order : List Nat)
    (ho : Arrival frags coverage order) (allow : TreeMap) (ha : SMap.Sorted allow) (a : Nat) (hc : fragmentId a ∈ coverage) :
    selected (finalMask (some ⟨some allow, none⟩) (deletionMask false frags coverage order).mask?) a = true ↔
      contains allow a = true ∧ LiveAddr frags a := by
  have h := C45_addresses frags hd coverage order ho a hc
  rw [← h]
  unfold deletionMask
  split
  · simp only [Deletions.mask?, passes, and_true, finalMask]
    rw [(maskAnd_default _ a).1]
    rfl
  · simp only [Bool.false_eq_true, if_false, Deletions.mask?, passes]
    rw [C45_final_allow_list allow ha _ (blockMask_sorted frags _ order) a, Bool.and_eq_true]

example : [newFromParts 0 7, newFromParts 1 0, newFromParts 2 1, newFromParts 2 2].map
    (fun a => selected (finalMask (some ⟨some [(0, .part [7]), (2, .part [1])], none⟩)
      (deletionMask false sample [0, 1, 2] [2]).mask?) a) = [true, false, false, false] := by decide +kernel

end Verif.Prefilter
