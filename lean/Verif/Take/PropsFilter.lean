import Verif.Take.PropsOffset

/-!
# C31: take on one fragment.  C55: filtering deleted row ids
-/
namespace Verif.Take
open Verif
open Verif.Read (Frag Row Opts Cell readImpl takeRange countRows live rowAt Splits liveOffsets)
open Verif.Deletion (DV IsNthLive liveBelow)

variable {α : Type}

/-! ## FileFragment::take -/

theorem nth_liveOffsets (f : Frag α) (d : DV) (hd : f.dv = some d) (l a : Nat) (h : IsNthLive d.contains l a)
    (ha : a < f.rows) : (liveOffsets f)[l]? = some a := by
  have hf : liveOffsets f = (List.range f.rows).filter (fun i => !d.contains i) := by
    unfold liveOffsets; rw [hd]; rfl
  have hmem : a ∈ liveOffsets f := by
    rw [hf, List.mem_filter]; exact ⟨by simpa using ha, by simp [h.1]⟩
  obtain ⟨k, hk, e⟩ := List.getElem_of_mem hmem
  have hk' : (liveOffsets f)[k]? = some a := by rw [List.getElem?_eq_getElem hk, e]
  have := liveOffsets_nth f d hd k a hk'
  have : k = l := by rw [← this.2, h.2]
  rw [← this]; exact hk'

theorem mem_liveOffsets_lt {f : Frag α} {o : Nat} (h : o ∈ liveOffsets f) : o < f.rows ∧ live f.dv o = true := by
  unfold liveOffsets at h
  rw [List.mem_filter, List.mem_range] at h
  exact h

/-- The physical row that `take` goes to for a live row number. -/
theorem takeIndices_spec (f : Frag α) (hf : f.OK) (indices : List Nat) :
    ∃ g : Nat → Nat, Deletion.takeIndices f.dv indices = indices.map g ∧
      ∀ i, (i < (liveOffsets f).length → (liveOffsets f)[i]? = some (g i)) ∧
        ((liveOffsets f).length ≤ i → f.rows ≤ g i) := by
  cases hd : f.dv with
  | none =>
    have hl : liveOffsets f = List.range f.rows := by
      unfold liveOffsets; rw [hd]; exact List.filter_eq_self.mpr (by simp [live])
    refine ⟨id, by rw [Deletion.C06_take_without_deletions, List.map_id], ?_⟩
    intro i
    rw [hl]
    constructor
    · intro hi
      simp only [List.length_range] at hi
      rw [List.getElem?_range hi]; rfl
    · intro hi
      simpa using hi
  | some d =>
    obtain ⟨hw, hb⟩ := hf.dv d hd
    obtain ⟨g, hg⟩ := Deletion.nthLive_fun d hw
    refine ⟨g, Deletion.C06_fragment_take d hw g hg indices, ?_⟩
    intro i
    have hlen : (liveOffsets f).length = liveBelow d.contains f.rows := by
      unfold liveOffsets
      rw [hd]
      exact (Read.map_liveBelow d.contains f.rows).2
    constructor
    · intro hi
      apply nth_liveOffsets f d hd i (g i) (hg i)
      rcases Nat.lt_or_ge (g i) f.rows with h | h
      · exact h
      · have := Deletion.liveBelow_mono d.contains h
        rw [(hg i).2] at this; omega
    · intro hi
      rcases Nat.lt_or_ge (g i) f.rows with h | h
      · have hm := Deletion.liveBelow_mono d.contains (a := g i + 1) (b := f.rows) (by omega)
        rw [Deletion.liveBelow_succ, (hg i).1, (hg i).2] at hm
        simp at hm; omega
      · exact h

/-- C31: `FileFragment::take` returns the live rows with the given numbers, in the order of the request. -/
theorem C31_fragment_take (split : List α → List (List α)) (hsp : Splits split) (f : Frag α) (hf : f.OK)
    (indices : List Nat) (h : ∀ i ∈ indices, i < (liveOffsets f).length) :
    ∃ rows, takeFrag split f indices = .ok rows ∧ rows.length = indices.length ∧
      ∀ k i : Nat, indices[k]? = some i →
        (rows[k]?).map (·.data) = ((liveOffsets f)[i]?).map f.file := by
  obtain ⟨g, h1, h2⟩ := takeIndices_spec f hf indices
  have hlive : ∀ i ∈ indices, g i < f.rows ∧ live f.dv (g i) = true := by
    intro i hi
    exact mem_liveOffsets_lt (List.mem_of_getElem? ((h2 i).1 (h i hi)))
  have hfilter : (indices.map g).filter (live f.dv) = indices.map g := by
    rw [List.filter_eq_self]
    intro o ho
    obtain ⟨i, hi, rfl⟩ := List.mem_map.mp ho
    exact (hlive i hi).2
  unfold takeFrag
  rw [h1, takeRowsFrag_ok split hsp f hf _ _ (by
    intro o ho
    obtain ⟨i, hi, rfl⟩ := List.mem_map.mp ho
    exact (hlive i hi).1), hfilter]
  refine ⟨_, rfl, by simp, ?_⟩
  intro k i hk
  rw [(h2 i).1 (h i (List.mem_of_getElem? hk))]
  simp [hk, rowAt]

/-- C31: a number beyond the live rows of the fragment is an error, whatever the order. -/
theorem C31_fragment_range (split : List α → List (List α)) (f : Frag α) (hf : f.OK)
    (indices : List Nat) (h : ∃ i ∈ indices, (liveOffsets f).length ≤ i) :
    takeFrag split f indices = .error .error := by
  obtain ⟨g, h1, h2⟩ := takeIndices_spec f hf indices
  obtain ⟨i, hi, hge⟩ := h
  unfold takeFrag
  rw [h1]
  exact takeRowsFrag_error split f hf _ _ ⟨g i, List.mem_map_of_mem hi, (h2 i).2 hge⟩

example : (match takeFrag one Read.plainFrag [2, 0, 2] with | .ok r => some (r.map (·.data)) | .error _ => none) =
    some [54, 51, 54] := by decide +kernel
example : takeFrag one Read.plainFrag [3, 0] = .error .error :=
  C31_fragment_range one Read.plainFrag Read.plainFrag_ok [3, 0] ⟨3, by decide, by decide⟩

/-! ## filter_deleted_ids -/

/-- The row at an address is there and not deleted. -/
def isLive (frags : List (Frag α)) (a : Nat) : Bool :=
  match frags.find? (fun f => f.id == a / U32) with
  | none => false
  | some f => live f.dv (a % U32)

/-- C55, full statement: exactly the ids of live rows are returned, in order. -/
def C55_statement : Prop :=
  ∀ (index : Nat → Option Nat) (frags : List (Frag Nat)) (ids : List Nat), DatasetOK frags →
    (frags.map (·.id)).Pairwise (· < ·) →
    (∀ id a, index id = some a → Physical frags a) →
    filterDeletedIds (some index) frags ids =
      .ok (ids.filter (fun id => match index id with | some a => isLive frags a | none => false))

/-- Row ids: `10 + o` for the rows of fragment 2 of `sample`. -/
def sampleIndex (id : Nat) : Option Nat := if 10 ≤ id ∧ id < 15 then some (2 * U32 + (id - 10)) else none

theorem sampleIndex_physical (id a : Nat) (h : sampleIndex id = some a) : Physical sample a := by
  unfold sampleIndex at h
  split at h
  · rename_i hc
    cases h
    refine ⟨Read.plainFrag, by simp [sample], ?_⟩
    show (2 = _) ∧ _ < 5
    omega
  · cases h

/-- It fails: an unknown id shifts the answers, so a wrong id is returned and a live one is lost. -/
theorem C55_unknown_id_violated : ¬ C55_statement := by
  intro h
  have := h sampleIndex sample [99, 11] sample_ok (by decide) sampleIndex_physical
  have e : dataOf (filterDeletedIds (some sampleIndex) sample [99, 11]) = some [99] := by decide +kernel
  rw [this] at e
  revert e
  decide +kernel

/-- And a deleted row that is asked for twice is returned once (row 10 is deleted). -/
theorem C55_duplicate_violated : ¬ C55_statement := by
  intro h
  have := h sampleIndex sample [10, 10] sample_ok (by decide) sampleIndex_physical
  have e : dataOf (filterDeletedIds (some sampleIndex) sample [10, 10]) = some [10] := by decide +kernel
  rw [this] at e
  revert e
  decide +kernel

/-- Without stable row ids, an address beyond the last fragment makes the process panic. -/
theorem C55_beyond_panic :
    (match filterDeletedIds none sample [2 * U32 + 1, 8 * U32] with | .error .panic => true | _ => false) = true := by
  decide +kernel

/-! ### What holds -/

theorem takeWhile_append_of {β : Type} (p : β → Bool) (g t : List β) (ht : ∀ a l, t = a :: l → p a = false) :
    (g ++ t).takeWhile p = g.takeWhile p ∧ (g ++ t).dropWhile p = g.dropWhile p ++ t := by
  induction g with
  | nil =>
    cases t with
    | nil => exact ⟨rfl, rfl⟩
    | cons a l => simp [ht a l rfl]
  | cons a g ih =>
    simp only [List.cons_append, List.takeWhile_cons, List.dropWhile_cons]
    split
    · exact ⟨by rw [ih.1], ih.2⟩
    · exact ⟨rfl, rfl⟩

theorem dvLoop_spec (frag : Nat) (ds : List Nat) (hds : ds.Pairwise (· < ·)) (g t : List Nat)
    (hg : ∀ a ∈ g, a / U32 = frag) (hs : g.Pairwise (· ≤ ·)) (ht : ∀ a l, t = a :: l → a / U32 ≠ frag)
    (hdup : ∀ a ∈ g, a % U32 ∈ ds → g.count a ≤ 1) :
    ∃ g1 g2, g = g1 ++ g2 ∧ dvLoop frag ds (g ++ t) =
      (g1.map (fun a => if a % U32 ∈ ds then none else some a), g2 ++ t) ∧ ∀ a ∈ g2, a % U32 ∉ ds := by
  induction ds generalizing g with
  | nil => exact ⟨[], g, rfl, rfl, by simp⟩
  | cons del ds ih =>
    have hds' := (List.pairwise_cons.1 hds)
    generalize hp : (fun a => decide (a / U32 = frag) && decide (a % U32 < del)) = p
    have htp : ∀ a l, t = a :: l → p a = false := by
      intro a l e; rw [← hp]; simp [ht a l e]
    obtain ⟨e1, e2⟩ := takeWhile_append_of p g t htp
    have hsplit : g = g.takeWhile p ++ g.dropWhile p := (List.takeWhile_append_dropWhile).symm
    have hkeep : ∀ a ∈ g.takeWhile p, a % U32 ∉ del :: ds := by
      intro a ha
      have hpa : p a = true := List.all_eq_true.mp List.all_takeWhile a ha
      rw [← hp] at hpa
      simp at hpa
      intro hmem
      rcases List.mem_cons.mp hmem with h | h
      · omega
      · have := hds'.1 _ h; omega
    have hkeepmap : (g.takeWhile p).map (fun a => if a % U32 ∈ del :: ds then none else some a) = (g.takeWhile p).map some := by
      apply List.map_congr_left
      intro a ha
      rw [if_neg (hkeep a ha)]
    unfold dvLoop
    simp only [hp, e1, e2]
    cases hr : g.dropWhile p with
    | nil =>
      have hgk : g = g.takeWhile p ++ [] := by rw [← hr]; exact hsplit
      cases t with
      | nil => exact ⟨g.takeWhile p, [], hgk, by simp only [List.append_nil]; rw [hkeepmap], by simp⟩
      | cons b t =>
        refine ⟨g.takeWhile p, [], hgk, ?_, by simp⟩
        simp only [List.nil_append]
        rw [if_pos (ht b t rfl), hkeepmap]
    | cons a as =>
      have hmem : a ∈ g := by rw [hsplit, hr]; simp
      have hfrag := hg a hmem
      have hpa : p a = false := by
        have := List.head?_dropWhile_not p g
        rw [hr] at this
        simpa using this
      have hge : ¬ a % U32 < del := by
        rw [← hp] at hpa
        simpa [hfrag] using hpa
      have hs2 : (a :: as).Pairwise (· ≤ ·) := by
        rw [hsplit, hr] at hs
        exact (List.pairwise_append.mp hs).2.1
      have hsub : ∀ x ∈ a :: as, x ∈ g := by
        intro x hx; rw [hsplit, hr]; exact List.mem_append_right _ hx
      have hcount : ∀ x, (a :: as).count x ≤ g.count x := by
        intro x
        conv => rhs; rw [hsplit, hr, List.count_append]
        omega
      simp only [List.cons_append, ne_eq, hfrag, not_true_eq_false, if_false]
      have hge2 : ∀ x ∈ as, a ≤ x := (List.pairwise_cons.1 hs2).1
      split
      · rename_i heq
        -- no other copy of this address
        have hno : a ∉ as := by
          intro h
          have h1 := hdup a hmem (by rw [heq]; exact List.mem_cons_self)
          have h2 := hcount a
          rw [List.count_cons_self] at h2
          have := List.count_pos_iff.mpr h
          omega
        have hgt : ∀ x ∈ as, del < x % U32 := by
          intro x hx
          have h1 := hge2 x hx
          have h2 := hg x (hsub x (List.mem_cons_of_mem _ hx))
          have h3 : x ≠ a := fun e => hno (e ▸ hx)
          omega
        obtain ⟨g1, g2, i1, i2, i3⟩ := ih hds'.2 as (fun x hx => hg x (hsub x (List.mem_cons_of_mem _ hx)))
          (List.pairwise_cons.1 hs2).2 (by
            intro x hx hxd
            have h1 := hdup x (hsub x (List.mem_cons_of_mem _ hx)) (List.mem_cons_of_mem _ hxd)
            have h2 := hcount x
            rw [List.count_cons] at h2
            omega)
        have hsub2 : ∀ x ∈ g1 ++ g2, x ∈ as := by rw [← i1]; exact fun _ h => h
        refine ⟨g.takeWhile p ++ a :: g1, g2, ?_, ?_, ?_⟩
        · rw [List.append_assoc, List.cons_append, ← i1, ← hr]; exact hsplit
        · rw [i2, List.map_append, hkeepmap, List.map_cons, if_pos (by rw [heq]; exact List.mem_cons_self)]
          congr 3
          apply List.map_congr_left
          intro x hx
          have := hgt x (hsub2 x (List.mem_append_left _ hx))
          simp only [List.mem_cons]
          have hne : ¬ x % U32 = del := by omega
          simp [hne]
        · intro x hx hmemx
          rcases List.mem_cons.mp hmemx with h | h
          · have := hgt x (hsub2 x (List.mem_append_right _ hx)); omega
          · exact i3 x hx h
      · rename_i hne
        have hgt : ∀ x ∈ a :: as, del < x % U32 := by
          intro x hx
          have h2 := hg x (hsub x hx)
          rcases List.mem_cons.mp hx with rfl | hx
          · omega
          · have h1 := hge2 x hx
            omega
        obtain ⟨g1, g2, i1, i2, i3⟩ := ih hds'.2 (a :: as) (fun x hx => hg x (hsub x hx)) hs2 (by
            intro x hx hxd
            have h1 := hdup x (hsub x hx) (List.mem_cons_of_mem _ hxd)
            have h2 := hcount x
            omega)
        have hsub2 : ∀ x ∈ g1 ++ g2, x ∈ a :: as := by rw [← i1]; exact fun _ h => h
        rw [List.cons_append] at i2
        refine ⟨g.takeWhile p ++ g1, g2, ?_, ?_, ?_⟩
        · rw [List.append_assoc, ← i1, ← hr]; exact hsplit
        · rw [i2, List.map_append, hkeepmap]
          congr 2
          apply List.map_congr_left
          intro x hx
          have := hgt x (hsub2 x (List.mem_append_left _ hx))
          simp only [List.mem_cons]
          have hne : ¬ x % U32 = del := by omega
          simp [hne]
        · intro x hx hmemx
          rcases List.mem_cons.mp hmemx with h | h
          · have := hgt x (hsub2 x (List.mem_append_right _ hx)); omega
          · exact i3 x hx h

/-- The answer for an address. -/
def mark (frags : List (Frag α)) (a : Nat) : Option Nat := if isLive frags a then some a else none

theorem filterFrag_spec (frags : List (Frag α)) (hd : DatasetOK frags) (frag : Nat) (g t : List Nat)
    (hg : ∀ a ∈ g, a / U32 = frag) (hs : g.Pairwise (· ≤ ·)) (ht : ∀ a l, t = a :: l → a / U32 ≠ frag)
    (hdup : ∀ a ∈ g, isLive frags a = false → g.count a ≤ 1) :
    filterFrag (frags.find? (fun f => f.id == frag)) frag (g ++ t) = (g.map (mark frags), t) := by
  have hpt : ∀ a l, t = a :: l → (fun a => decide (a / U32 = frag)) a = false := by
    intro a l e; simp [ht a l e]
  have hpg : ∀ g' : List Nat, (∀ a ∈ g', a / U32 = frag) →
      g'.takeWhile (fun a => decide (a / U32 = frag)) = g' ∧ g'.dropWhile (fun a => decide (a / U32 = frag)) = [] := by
    intro g' h
    induction g' with
    | nil => exact ⟨rfl, rfl⟩
    | cons a l ih =>
      obtain ⟨i1, i2⟩ := ih (fun x hx => h x (List.mem_cons_of_mem _ hx))
      simp [h a List.mem_cons_self, i1, i2]
  cases hf : frags.find? (fun f => f.id == frag) with
  | none =>
    unfold filterFrag
    simp only
    obtain ⟨e1, e2⟩ := takeWhile_append_of _ g t hpt
    obtain ⟨e3, e4⟩ := hpg g hg
    rw [e1, e2, e3, e4, List.nil_append]
    congr 1
    apply List.map_congr_left
    intro a ha
    unfold mark isLive
    rw [hg a ha, hf]
    rfl
  | some f =>
    have hfm := List.mem_of_find?_eq_some hf
    have hmark : ∀ a ∈ g, mark frags a = if live f.dv (a % U32) = true then some a else none := by
      intro a ha
      unfold mark isLive
      rw [hg a ha, hf]
    have hlive : ∀ a ∈ g, isLive frags a = live f.dv (a % U32) := by
      intro a ha
      unfold isLive
      rw [hg a ha, hf]
    unfold filterFrag
    cases hdv : f.dv with
    | none =>
      simp only [hdv]
      obtain ⟨e1, e2⟩ := takeWhile_append_of _ g t hpt
      obtain ⟨e3, e4⟩ := hpg g hg
      rw [e1, e2, e3, e4, List.nil_append, List.nil_append]
      congr 1
      apply List.map_congr_left
      intro a ha
      rw [hmark a ha, hdv]
      rfl
    | some d =>
      obtain ⟨hw, _⟩ := (hd.ok f hfm).dv d hdv
      have hmem : ∀ o, o ∈ d.sortedIter ↔ d.contains o = true := fun o => Deletion.mem_sortedIter d o
      have hlv : ∀ o, live f.dv o = !d.contains o := by intro o; rw [hdv]; rfl
      obtain ⟨g1, g2, i1, i2, i3⟩ := dvLoop_spec frag d.sortedIter (Deletion.sorted_sortedIter d hw) g t hg hs ht (by
        intro a ha hin
        apply hdup a ha
        rw [hlive a ha, hlv, (hmem _).mp hin]
        rfl)
      simp only [hdv, i2]
      have hg2 : ∀ a ∈ g2, a / U32 = frag := fun a ha => hg a (by rw [i1]; exact List.mem_append_right _ ha)
      obtain ⟨e1, e2⟩ := takeWhile_append_of _ g2 t hpt
      obtain ⟨e3, e4⟩ := hpg g2 hg2
      rw [e1, e2, e3, e4, List.nil_append]
      congr 1
      rw [show List.map (mark frags) g = List.map (mark frags) (g1 ++ g2) by rw [i1], List.map_append]
      congr 1
      · apply List.map_congr_left
        intro a ha
        rw [hmark a (by rw [i1]; exact List.mem_append_left _ ha), hlv]
        by_cases hc : d.contains (a % U32) = true
        · rw [if_pos ((hmem _).mpr hc), hc]; rfl
        · rw [if_neg (fun h => hc ((hmem _).mp h))]
          have : d.contains (a % U32) = false := by simpa using hc
          rw [this]; rfl
      · apply List.map_congr_left
        intro a ha
        have hc : d.contains (a % U32) = false := by
          have := i3 a ha
          rw [hmem] at this
          simpa using this
        rw [hmark a (by rw [i1]; exact List.mem_append_right _ ha), hlv, hc]
        rfl

theorem fragsFromIds_spec (frags : List (Frag α)) (hid : ∀ f ∈ frags, f.id < U32)
    (hs : (frags.map (·.id)).Pairwise (· < ·)) (ids : List Nat) (hi : ids.Pairwise (· < ·))
    (hle : ∀ i ∈ ids, ∃ f ∈ frags, i ≤ f.id) :
    fragsFromIds frags ids = ids.map (fun i => frags.find? (fun f => f.id == i)) := by
  induction frags generalizing ids with
  | nil =>
    cases ids with
    | nil => rfl
    | cons i is => obtain ⟨f, hf, _⟩ := hle i List.mem_cons_self; cases hf
  | cons f fs ih =>
    simp only [List.map_cons, List.pairwise_cons] at hs
    have hmod : f.id % U32 = f.id := Nat.mod_eq_of_lt (hid f List.mem_cons_self)
    have hlt : ∀ g ∈ fs, f.id < g.id := fun g hg => hs.1 g.id (List.mem_map_of_mem hg)
    have hsplit : ids = ids.takeWhile (fun i => decide (i < f.id)) ++ ids.dropWhile (fun i => decide (i < f.id)) :=
      (List.takeWhile_append_dropWhile).symm
    have hpair := hi
    rw [hsplit, List.pairwise_append] at hpair
    unfold fragsFromIds
    rw [hmod]
    have hfirst : ∀ i ∈ ids.takeWhile (fun i => decide (i < f.id)), (f :: fs).find? (fun f => f.id == i) = none := by
      intro i h
      have hp : decide (i < f.id) = true := List.all_eq_true.mp (List.all_takeWhile (p := fun i => decide (i < f.id))) i h
      simp only [decide_eq_true_eq] at hp
      rw [List.find?_eq_none]
      intro g hg
      rcases List.mem_cons.mp hg with rfl | hg
      · simp; omega
      · have := hlt g hg; simp; omega
    conv => rhs; rw [hsplit, List.map_append]
    have hmap1 : (ids.takeWhile (fun i => decide (i < f.id))).map (fun _ => (none : Option (Frag α))) =
        (ids.takeWhile (fun i => decide (i < f.id))).map (fun i => (f :: fs).find? (fun f => f.id == i)) := by
      apply List.map_congr_left
      intro i h
      rw [hfirst i h]
    rw [hmap1]
    congr 1
    cases hr : ids.dropWhile (fun i => decide (i < f.id)) with
    | nil => rfl
    | cons i is =>
      rw [hr] at hpair
      have hnot : ¬ i < f.id := by
        have := List.head?_dropWhile_not (fun i => decide (i < f.id)) ids
        rw [hr] at this
        simpa using this
      have hpi := List.pairwise_cons.mp hpair.2.1
      have hsub : ∀ x ∈ i :: is, x ∈ ids := by
        intro x hx; rw [hsplit, hr]; exact List.mem_append_right _ hx
      simp only
      split
      · rename_i heq
        rw [List.map_cons, List.find?_cons_of_pos (by simp [heq])]
        congr 1
        rw [ih (fun g hg => hid g (List.mem_cons_of_mem _ hg)) hs.2 is hpi.2]
        · apply List.map_congr_left
          intro j hj
          have := hpi.1 j hj
          rw [List.find?_cons_of_neg (by simp; omega)]
        · intro j hj
          obtain ⟨g, hg, hjg⟩ := hle j (hsub j (List.mem_cons_of_mem _ hj))
          have := hpi.1 j hj
          rcases List.mem_cons.mp hg with rfl | hg
          · omega
          · exact ⟨g, hg, hjg⟩
      · rename_i hne
        have hbig : ∀ j ∈ i :: is, f.id < j := by
          intro j hj
          rcases List.mem_cons.mp hj with rfl | hj
          · omega
          · have := hpi.1 j hj; omega
        rw [ih (fun g hg => hid g (List.mem_cons_of_mem _ hg)) hs.2 (i :: is) hpair.2.1]
        · apply List.map_congr_left
          intro j hj
          have := hbig j hj
          rw [List.find?_cons_of_neg (by simp; omega)]
        · intro j hj
          obtain ⟨g, hg, hjg⟩ := hle j (hsub j hj)
          have := hbig j hj
          rcases List.mem_cons.mp hg with rfl | hg
          · omega
          · exact ⟨g, hg, hjg⟩

theorem dedup_same (n x : Nat) (l : List Nat) (h : ∀ y m, l = y :: m → y ≠ x) :
    dedup (List.replicate (n + 1) x ++ l) = x :: dedup l := by
  induction n with
  | zero =>
    show (match dedup l with
      | [] => [x]
      | b :: m => if x = b then b :: m else x :: b :: m) = x :: dedup l
    cases hl : dedup l with
    | nil => rfl
    | cons b m =>
      simp only
      have : x ≠ b := by
        cases l with
        | nil => cases hl
        | cons y l' =>
          intro e
          apply h y l' rfl
          subst e
          have : dedup (y :: l') = x :: m := hl
          unfold dedup at this
          cases hd : dedup l' with
          | nil => rw [hd] at this; simp at this; exact this.1
          | cons b' m' =>
            rw [hd] at this
            simp only at this
            split at this
            · rename_i e'; rw [e']; simp at this; exact this.1
            · simp at this; exact this.1
      rw [if_neg this]
  | succ n ih =>
    show (match dedup (List.replicate (n + 1) x ++ l) with
      | [] => [x]
      | b :: m => if x = b then b :: m else x :: b :: m) = x :: dedup l
    rw [ih]
    simp

theorem filterLoop_spec (frags : List (Frag α)) (hd : DatasetOK frags) (n : Nat) (addrs : List Nat) (hn : addrs.length ≤ n)
    (hs : addrs.Pairwise (· ≤ ·)) (hdup : ∀ a ∈ addrs, isLive frags a = false → addrs.count a ≤ 1) :
    filterLoop ((dedup (addrs.map (· / U32))).map (fun i => (frags.find? (fun f => f.id == i), i))) addrs =
      addrs.map (mark frags) ∧ (dedup (addrs.map (· / U32))).Pairwise (· < ·) ∧
      (∀ i ∈ dedup (addrs.map (· / U32)), ∃ a ∈ addrs, a / U32 = i) := by
  refine ⟨?_, ?_, ?_⟩
  · induction n generalizing addrs with
    | zero =>
      have : addrs = [] := List.length_eq_zero_iff.mp (by omega)
      subst this; rfl
    | succ n ih =>
      cases addrs with
      | nil => rfl
      | cons a as =>
        generalize hp : (fun b => decide (b / U32 = a / U32)) = p
        have hsplit : a :: as = (a :: as).takeWhile p ++ (a :: as).dropWhile p := (List.takeWhile_append_dropWhile).symm
        have hpa : p a = true := by rw [← hp]; simp
        have hg : ∀ b ∈ (a :: as).takeWhile p, b / U32 = a / U32 := by
          intro b hb
          have := List.all_eq_true.mp List.all_takeWhile b hb
          rw [← hp] at this
          simpa using this
        generalize hgd : (a :: as).takeWhile p = g at *
        generalize htd : (a :: as).dropWhile p = t at *
        have hgpos : ∃ m, g.length = m + 1 := by
          rw [List.takeWhile_cons, if_pos hpa] at hgd
          rw [← hgd]
          exact ⟨_, rfl⟩
        have ht : ∀ b l, t = b :: l → b / U32 ≠ a / U32 := by
          intro b l e
          have := List.head?_dropWhile_not p (a :: as)
          rw [htd, e] at this
          rw [← hp] at this
          simpa using this
        rw [hsplit] at hs hdup
        obtain ⟨s1, s2, s3⟩ := List.pairwise_append.mp hs
        obtain ⟨m, hm⟩ := hgpos
        have hmapg : g.map (· / U32) = List.replicate (m + 1) (a / U32) := by
          rw [← hm]
          apply List.eq_replicate_iff.mpr
          refine ⟨by simp, ?_⟩
          intro x hx
          obtain ⟨b, hb, rfl⟩ := List.mem_map.mp hx
          exact hg b hb
        have hded : dedup ((g ++ t).map (· / U32)) = (a / U32) :: dedup (t.map (· / U32)) := by
          rw [List.map_append, hmapg]
          apply dedup_same
          intro y l e
          cases t with
          | nil => cases e
          | cons b t' =>
            simp only [List.map_cons, List.cons.injEq] at e
            rw [← e.1]
            exact ht b t' rfl
        rw [hsplit, hded, List.map_cons, filterLoop]
        rw [filterFrag_spec frags hd (a / U32) g t hg s1 ht (by
          intro b hb hl
          have := hdup b (List.mem_append_left _ hb) hl
          rw [List.count_append] at this
          omega)]
        rw [ih t (by
            have := congrArg List.length hsplit
            rw [List.length_append] at this
            simp only [List.length_cons] at this hn
            omega) s2 (by
            intro b hb hl
            have := hdup b (List.mem_append_right _ hb) hl
            rw [List.count_append] at this
            omega), List.map_append]
  · -- strictly increasing
    have hs' : (addrs.map (· / U32)).Pairwise (· ≤ ·) := by
      rw [List.pairwise_map]
      exact hs.imp (fun {a b} h => Nat.div_le_div_right h)
    revert hs'
    generalize addrs.map (· / U32) = l
    intro hl
    induction l with
    | nil => exact List.Pairwise.nil
    | cons x l ih =>
      obtain ⟨h1, h2⟩ := List.pairwise_cons.mp hl
      have hi := ih h2
      unfold dedup
      cases hd : dedup l with
      | nil => exact List.pairwise_singleton _ _
      | cons b m =>
        rw [hd] at hi
        simp only
        split
        · exact hi
        · rename_i hne
          refine List.pairwise_cons.mpr ⟨?_, hi⟩
          have hb : x < b := by
            have := h1 b ((mem_dedup l b).mp (by rw [hd]; exact List.mem_cons_self))
            omega
          intro y hy
          rcases List.mem_cons.mp hy with rfl | hy
          · exact hb
          · have := (List.pairwise_cons.mp hi).1 y hy; omega
  · intro i hi
    rw [mem_dedup, List.mem_map] at hi
    exact hi

/-- Undoing the sort of numbered items. -/
theorem unsort {β γ : Type} (key : β → Nat) (g : β → γ) (l : List β) :
    (sortBy (fun x : γ × Nat => x.2)
      (((sortBy (fun x : β × Nat => key x.1) l.zipIdx).map (fun x => g x.1)).zip
        ((sortBy (fun x : β × Nat => key x.1) l.zipIdx).map (fun x => x.2)))).map (fun x => x.1) = l.map g := by
  rw [List.zip_map']
  have hperm : ((sortBy (fun x : β × Nat => key x.1) l.zipIdx).map (fun x => (g x.1, x.2))).Perm
      (l.zipIdx.map (fun x => (g x.1, x.2))) := (sortBy_perm _ _).map _
  have hsorted : (l.zipIdx.map (fun x => (g x.1, x.2))).Pairwise (fun a b => a.2 < b.2) := by
    rw [List.pairwise_map]
    have : (l.zipIdx.map (fun x => x.2)).Pairwise (· < ·) := by
      rw [show (fun x : β × Nat => x.2) = Prod.snd from rfl, List.zipIdx_map_snd]; exact List.pairwise_lt_range'
    rw [List.pairwise_map] at this
    exact this
  have hp2 := (sortBy_perm (fun x : γ × Nat => x.2) _).trans hperm
  have hnd : (l.zipIdx.map (fun x => (g x.1, x.2))).Pairwise (fun a b => a.2 ≠ b.2) :=
    hsorted.imp (fun {a b} h => by omega)
  have hs2 := sortBy_sorted (fun x : γ × Nat => x.2)
    ((sortBy (fun x : β × Nat => key x.1) l.zipIdx).map (fun x => (g x.1, x.2)))
  have hnd2 := hp2.symm.pairwise hnd (fun {a b} h => h.symm)
  have heq : sortBy (fun x : γ × Nat => x.2) ((sortBy (fun x : β × Nat => key x.1) l.zipIdx).map (fun x => (g x.1, x.2))) =
      l.zipIdx.map (fun x => (g x.1, x.2)) := by
    apply List.Perm.eq_of_pairwise (le := fun a b : γ × Nat => a.2 < b.2) _ _ _ hp2
    · intro a b _ _ h1 h2; omega
    · exact (hs2.and hnd2).imp (fun {a b} h => by omega)
    · exact hsorted
  rw [heq, List.map_map]
  have : l.map g = (l.zipIdx.map Prod.fst).map g := by rw [List.zipIdx_map_fst]
  rw [this, List.map_map]
  rfl

theorem filterAddrOrIds_spec (frags : List (Frag α)) (hd : DatasetOK frags) (hs : (frags.map (·.id)).Pairwise (· < ·))
    (ids addrs : List Nat) (hle : ∀ a ∈ addrs, ∃ f ∈ frags, a / U32 ≤ f.id)
    (hdup : ∀ a ∈ addrs, isLive frags a = false → addrs.count a ≤ 1) :
    filterAddrOrIds frags ids addrs =
      .ok ((ids.zip addrs).filterMap (fun x => if isLive frags x.2 then some x.1 else none)) := by
  unfold filterAddrOrIds
  split
  · rename_i he
    rw [List.isEmpty_iff] at he
    subst he
    simp
  · simp only
    have hperm : ((sortBy (fun x : Nat × Nat => x.1) addrs.zipIdx).map (fun x => x.1)).Perm addrs := by
      have := (sortBy_perm (fun x : Nat × Nat => x.1) addrs.zipIdx).map (fun x => x.1)
      rw [show (addrs.zipIdx.map fun x => x.1) = addrs from List.zipIdx_map_fst 0 addrs] at this
      exact this
    have hsorted : ((sortBy (fun x : Nat × Nat => x.1) addrs.zipIdx).map (fun x => x.1)).Pairwise (· ≤ ·) := by
      rw [List.pairwise_map]
      exact sortBy_sorted (fun x : Nat × Nat => x.1) addrs.zipIdx
    obtain ⟨l1, l2, l3⟩ := filterLoop_spec frags hd _ ((sortBy (fun x : Nat × Nat => x.1) addrs.zipIdx).map (fun x => x.1))
      (Nat.le_refl _) hsorted (by
        intro a ha hl
        rw [hperm.count_eq]
        exact hdup a (hperm.mem_iff.mp ha) hl)
    rw [List.map_map] at l1 l2 l3
    have hids : (fun x : Nat × Nat => x.1 / U32) = ((· / U32) ∘ fun x => x.1) := rfl
    rw [hids, fragsFromIds_spec frags hd.ids hs _ l2 (by
      intro i hi
      obtain ⟨a, ha, rfl⟩ := l3 i hi
      exact hle a (hperm.mem_iff.mp ha))]
    have hzip : ((dedup ((sortBy (fun x : Nat × Nat => x.1) addrs.zipIdx).map ((· / U32) ∘ fun x => x.1))).map
          (fun i => frags.find? (fun f => f.id == i))).zip
        (dedup ((sortBy (fun x : Nat × Nat => x.1) addrs.zipIdx).map ((· / U32) ∘ fun x => x.1))) =
        (dedup ((sortBy (fun x : Nat × Nat => x.1) addrs.zipIdx).map ((· / U32) ∘ fun x => x.1))).map
          (fun i => (frags.find? (fun f => f.id == i), i)) := by
      generalize dedup _ = l
      induction l with
      | nil => rfl
      | cons a l ih => simp [ih]
    rw [hzip, l1]
    have hlen : (((sortBy (fun x : Nat × Nat => x.1) addrs.zipIdx).map (fun x => x.1)).map (mark frags)).length = addrs.length := by
      rw [List.length_map]; exact hperm.length_eq
    rw [if_neg (by rw [hlen]; simp)]
    rw [List.map_map]
    have := unsort (fun a : Nat => a) (mark frags) addrs
    rw [show (mark frags ∘ fun x : Nat × Nat => x.1) = (fun x => mark frags x.1) from rfl, this]
    congr 1
    rw [List.zip_map_right, List.filterMap_map]
    congr 1
    funext x
    show (mark frags x.2).map (fun _ => x.1) = _
    unfold mark
    by_cases h : isLive frags x.2 = true <;> simp [h]

/-- C55: what holds, for fragments in the order of their ids: if every id is known to the index, lies in a
fragment not behind the last one, and no deleted row is asked for twice, the ids of live rows are
returned in order. -/
theorem C55_filter_partial (index : Option (Nat → Option Nat)) (frags : List (Frag α)) (hd : DatasetOK frags)
    (hs : (frags.map (·.id)).Pairwise (· < ·)) (ids : List Nat) (addr : Nat → Nat)
    (hknown : ∀ id ∈ ids, (match index with | none => some id | some ix => ix id) = some (addr id))
    (hle : ∀ id ∈ ids, ∃ f ∈ frags, addr id / U32 ≤ f.id)
    (hdup : ∀ id ∈ ids, isLive frags (addr id) = false → (ids.map addr).count (addr id) ≤ 1) :
    filterDeletedIds index frags ids = .ok (ids.filter (fun id => isLive frags (addr id))) := by
  have haddrs : rowAddrs index ids = ids.map addr := by
    unfold rowAddrs
    cases index with
    | none =>
      simp only [Option.some.injEq] at hknown
      simp only
      conv => lhs; rw [← List.map_id ids]
      apply List.map_congr_left
      intro id hid
      exact hknown id hid
    | some ix =>
      simp only at hknown ⊢
      clear hle hdup
      induction ids with
      | nil => rfl
      | cons a l ih =>
        rw [List.filterMap_cons, hknown a List.mem_cons_self, List.map_cons,
          ih (fun x hx => hknown x (List.mem_cons_of_mem _ hx))]
  unfold filterDeletedIds
  rw [haddrs, filterAddrOrIds_spec frags hd hs ids (ids.map addr)]
  · congr 1
    have hz : ids.zip (ids.map addr) = ids.map (fun i => (i, addr i)) := by
      generalize ids = l
      induction l with
      | nil => rfl
      | cons a l ih => simp [ih]
    rw [hz, List.filterMap_map]
    generalize ids = l
    induction l with
    | nil => rfl
    | cons a l ih =>
      rw [List.filterMap_cons, List.filter_cons, ih]
      by_cases h : isLive frags (addr a) = true <;> simp [h]
  · intro a ha
    obtain ⟨i, hi, rfl⟩ := List.mem_map.mp ha
    exact hle i hi
  · intro a ha hl
    obtain ⟨i, hi, rfl⟩ := List.mem_map.mp ha
    exact hdup i hi hl

/-- Rows 10 and 13 of fragment 2 are deleted; fragment 5 does not exist. -/
example : dataOf (filterDeletedIds none sample [7 * U32 + 1, 2 * U32 + 4, 5 * U32, 2 * U32 + 3, 2 * U32 + 1, 7 * U32 + 1]) =
    some [7 * U32 + 1, 2 * U32 + 4, 2 * U32 + 1, 7 * U32 + 1] := by decide +kernel

end Verif.Take
