import Verif.Update.Model
import Verif.Read.PropsScan
import Verif.Deletion.Props

/-!
# Lemmas for updates: which rows a set of row addresses removes
-/
namespace Verif.Update
open Verif
open Verif.Read (Frag Row Opts Cell Scanner runScan live liveOffsets liveRows allRows rowAt rowIdOf Splits)
open Verif.Deletion (DV extendDeletions writeDeletions countBelow)
open Verif.RowIds (Seq)

variable {α : Type}

/-- A table: well-formed fragments with increasing 32-bit ids, all below the first free id. -/
structure Table (frags : List (Frag α)) (nextId : Nat) : Prop where
  ok : ∀ f ∈ frags, f.OK
  sorted : frags.Pairwise (fun f g => f.id < g.id)
  below : ∀ f ∈ frags, f.id < nextId
  u32 : nextId ≤ U32

/-- The addresses name rows of the fragments they point into. -/
def Addresses (frags : List (Frag α)) (removed : List Nat) : Prop :=
  ∀ a ∈ removed, ∀ f ∈ frags, f.id = a / U32 → a % U32 < f.rows

/-- What is left of a fragment. -/
def leftOf (removed : List Nat) (f : Frag α) : Option (Frag α) :=
  match fragChange removed f with
  | .unchanged => some f
  | .modified g => some g
  | _ => none

theorem mem_bitmapOf (removed : List Nat) (frag o : Nat) (h : frag < U32) :
    o ∈ bitmapOf removed frag ↔ o < U32 ∧ frag * U32 + o ∈ removed := by
  simp only [bitmapOf, List.mem_map, List.mem_filter, decide_eq_true_eq, Nat.mod_eq_of_lt h]
  constructor
  · rintro ⟨a, ⟨h1, h2⟩, h3⟩
    have : frag * U32 + o = a := by omega
    exact ⟨by omega, this ▸ h1⟩
  · rintro ⟨h1, h2⟩
    exact ⟨frag * U32 + o, ⟨h2, by omega⟩, by omega⟩

theorem live_getD (dv : Option DV) (o : Nat) : live dv o = !(dv.getD .none).contains o := by
  cases dv <;> rfl

/-- The three ways a fragment can change. -/
theorem fragChange_spec (removed : List Nat) (f : Frag α) (hf : f.OK) (hid : f.id < U32)
    (ha : ∀ o, o < U32 → f.id * U32 + o ∈ removed → o < f.rows) :
    (fragChange removed f = .unchanged ∧ ∀ o, o < f.rows → f.id * U32 + o ∉ removed) ∨
    (∃ d : DV, fragChange removed f = .modified { f with dv := some d } ∧ d.WF ∧
      ∀ o, d.contains o = true ↔ (live f.dv o = false ∨ (o < f.rows ∧ f.id * U32 + o ∈ removed))) ∨
    (fragChange removed f = .removed f.id ∧ ∀ o, o < f.rows → live f.dv o = true → f.id * U32 + o ∈ removed) := by
  have hrows := hf.rows
  unfold fragChange
  by_cases he : (bitmapOf removed f.id).isEmpty
  · left
    rw [if_pos he]
    refine ⟨rfl, fun o ho hm => ?_⟩
    have := (mem_bitmapOf removed f.id o hid).mpr ⟨by omega, hm⟩
    rw [List.isEmpty_iff] at he
    rw [he] at this; cases this
  · right
    rw [if_neg he]
    have hw0 : (f.dv.getD .none).WF ∧ ∀ o, (f.dv.getD .none).contains o = true → o < f.rows := by
      cases hd : f.dv with
      | none => exact ⟨trivial, fun o h => by simp [DV.contains] at h⟩
      | some d => exact hf.dv d hd
    have hwf := Deletion.extend_wf (f.dv.getD .none) hw0.1 (bitmapOf removed f.id).length
      (some (bitmapOf removed f.id).length) (bitmapOf removed f.id)
    have hc := Deletion.extend_contains (f.dv.getD .none) (bitmapOf removed f.id).length
      (some (bitmapOf removed f.id).length) (bitmapOf removed f.id)
      (by intro u hu; cases hu; exact Nat.le_refl _)
    unfold extendDeletions
    generalize (f.dv.getD .none).extend (bitmapOf removed f.id).length
      (some (bitmapOf removed f.id).length) (bitmapOf removed f.id) = d at hwf hc
    have hmem : ∀ o, d.contains o = true ↔ (live f.dv o = false ∨ (o < f.rows ∧ f.id * U32 + o ∈ removed)) := by
      intro o
      rw [hc o, mem_bitmapOf removed f.id o hid, live_getD]
      constructor
      · rintro (h | h)
        · left; simp [h]
        · right; exact ⟨ha o h.1 h.2, h.2⟩
      · rintro (h | h)
        · left; simpa using h
        · right; exact ⟨by omega, h.2⟩
    have hb : ∀ o, d.contains o = true → o < f.rows := by
      intro o ho
      rcases (hmem o).mp ho with h | h
      · apply hw0.2; rw [live_getD] at h; simpa using h
      · exact h.1
    have hlen := Deletion.len_eq_countBelow d hwf f.rows hb
    have hcle := Deletion.countBelow_le d.contains f.rows
    unfold writeDeletions
    by_cases hfull : d.len = f.rows
    · right
      have hall := Deletion.countBelow_full d.contains f.rows (by omega)
      rw [if_pos ⟨hfull, (Deletion.C05_contains_range d hwf 0 f.rows).mpr (fun i _ h => hall i h)⟩]
      refine ⟨rfl, fun o ho hl => ?_⟩
      rcases (hmem o).mp (hall o ho) with h | h
      · rw [hl] at h; cases h
      · exact h.2
    · left
      refine ⟨d, ?_, hwf, hmem⟩
      rw [if_neg (fun h => hfull h.1), if_neg (show ¬ d.len ≥ f.rows by omega)]

/-- What is left of a fragment: its other rows, unchanged. -/
theorem leftOf_spec (removed : List Nat) (f : Frag α) (hf : f.OK) (hid : f.id < U32)
    (ha : ∀ o, o < U32 → f.id * U32 + o ∈ removed → o < f.rows) :
    (∀ g, leftOf removed f = some g → g.OK ∧ g.id = f.id ∧ g.seq = f.seq) ∧
    ∀ o : Opts, ((leftOf removed f).toList).flatMap (liveRows o) =
      ((liveOffsets f).filter (fun off => !removed.contains (f.id * U32 + off))).map (rowAt f o) := by
  rcases fragChange_spec removed f hf hid ha with ⟨h1, h2⟩ | ⟨d, h1, h2, h3⟩ | ⟨h1, h2⟩
  · have hl : leftOf removed f = some f := by unfold leftOf; rw [h1]
    refine ⟨?_, ?_⟩
    · intro g hg; rw [hl] at hg; cases hg; exact ⟨hf, rfl, rfl⟩
    · intro o
      rw [hl, List.filter_eq_self.mpr]
      · simp [liveRows]
      · intro off hoff
        have := (List.mem_filter.mp hoff).1
        simpa using h2 off (List.mem_range.mp this)
  · have hl : leftOf removed f = some { f with dv := some d } := by unfold leftOf; rw [h1]
    refine ⟨?_, ?_⟩
    · intro g hg
      rw [hl] at hg; cases hg
      refine ⟨⟨hf.rows, ?_, hf.seq⟩, rfl, rfl⟩
      intro d' hd'
      cases hd'
      refine ⟨h2, fun o ho => ?_⟩
      rcases (h3 o).mp ho with h | h
      · cases hdv : f.dv with
        | none => rw [hdv] at h; cases h
        | some d0 =>
          apply (hf.dv d0 hdv).2
          rw [hdv] at h
          simpa [live] using h
      · exact h.1
    · intro o
      rw [hl]
      simp only [Option.toList_some, List.flatMap_cons, List.flatMap_nil, List.append_nil, liveRows, liveOffsets,
        List.filter_filter]
      show ((List.range f.rows).filter _).map (rowAt f o) = _
      congr 1
      apply List.filter_congr
      intro off hoff
      have hlt := List.mem_range.mp hoff
      have := h3 off
      show (!d.contains off) = _
      rw [Bool.eq_iff_iff]
      cases hlv : live f.dv off <;> cases hm : removed.contains (f.id * U32 + off) <;>
        cases hcd : d.contains off <;> simp_all
  · have hl : leftOf removed f = none := by unfold leftOf; rw [h1]
    refine ⟨?_, ?_⟩
    · intro g hg; rw [hl] at hg; cases hg
    · intro o
      rw [hl, List.filter_eq_nil_iff.mpr]
      · rfl
      · intro off hoff
        have := List.mem_filter.mp hoff
        simpa using h2 off (List.mem_range.mp this.1) this.2

/-- `applyDeletions` sorts the fragments into updated and removed ones. -/
theorem applyDeletions_spec (removed : List Nat) (l : List (Frag α))
    (hne : ∀ f ∈ l, fragChange removed f ≠ .error) :
    ∃ r, applyDeletions removed l = some r ∧
      (∀ g, g ∈ r.1 ↔ ∃ f ∈ l, fragChange removed f = .modified g) ∧
      (∀ i, i ∈ r.2 ↔ ∃ f ∈ l, fragChange removed f = .removed i) := by
  induction l with
  | nil => exact ⟨([], []), rfl, by simp, by simp⟩
  | cons f fs ih =>
    obtain ⟨r, h1, h2, h3⟩ := ih (fun f hf => hne f (List.mem_cons_of_mem _ hf))
    unfold applyDeletions
    cases hc : fragChange removed f with
    | error => exact absurd hc (hne f List.mem_cons_self)
    | unchanged =>
      refine ⟨r, h1, ?_, ?_⟩
      · intro g; rw [h2]; simp [hc]
      · intro i; rw [h3]; simp [hc]
    | modified g0 =>
      simp only [h1]
      refine ⟨_, rfl, ?_, ?_⟩
      · intro g
        simp only [List.mem_cons, h2, exists_eq_or_imp, hc, Change.modified.injEq]
        constructor
        · rintro (h | h)
          · exact Or.inl h.symm
          · exact Or.inr h
        · rintro (h | h)
          · exact Or.inl h.symm
          · exact Or.inr h
      · intro i; rw [h3]; simp [hc]
    | removed i0 =>
      simp only [h1]
      refine ⟨_, rfl, ?_, ?_⟩
      · intro g; rw [h2]; simp [hc]
      · intro i
        simp only [List.mem_cons, h3, exists_eq_or_imp, hc, Change.removed.injEq]
        constructor
        · rintro (h | h)
          · exact Or.inl h.symm
          · exact Or.inr h
        · rintro (h | h)
          · exact Or.inl h.symm
          · exact Or.inr h

theorem eq_of_id {frags : List (Frag α)} (hs : frags.Pairwise (fun f g => f.id < g.id)) {f g : Frag α}
    (hf : f ∈ frags) (hg : g ∈ frags) (h : f.id = g.id) : f = g := by
  induction frags with
  | nil => cases hf
  | cons a l ih =>
    rw [List.pairwise_cons] at hs
    rcases List.mem_cons.mp hf with e1 | h1 <;> rcases List.mem_cons.mp hg with e2 | h2
    · rw [e1, e2]
    · have := hs.1 g h2; rw [← e1] at this; omega
    · have := hs.1 f h1; rw [← e2] at this; omega
    · exact ih hs.2 h1 h2

theorem leftOf_pairwise {frags : List (Frag α)} (removed : List Nat)
    (hs : frags.Pairwise (fun f g => f.id < g.id))
    (hid : ∀ f ∈ frags, ∀ g, leftOf removed f = some g → g.id = f.id) :
    (frags.filterMap (leftOf removed)).Pairwise (fun f g => f.id < g.id) := by
  induction frags with
  | nil => exact List.Pairwise.nil
  | cons a l ih =>
    rw [List.pairwise_cons] at hs
    have ih := ih hs.2 (fun f hf => hid f (List.mem_cons_of_mem _ hf))
    rw [List.filterMap_cons]
    split
    · exact ih
    · rename_i g hg
      rw [List.pairwise_cons]
      refine ⟨?_, ih⟩
      intro b hb
      obtain ⟨f, hf, hfb⟩ := List.mem_filterMap.mp hb
      rw [hid f (List.mem_cons_of_mem _ hf) b hfb, hid a List.mem_cons_self g hg]
      exact hs.1 f hf

/-- Removing a set of row addresses and committing: the fragments that are left, in order, then the new ones. -/
theorem commit_eq {frags : List (Frag α)} {nextId : Nat} (ht : Table frags nextId) (removed : List Nat)
    (ha : Addresses frags removed) (l : List (Frag α)) (hl : l.Perm frags) (new : List (Frag α))
    (hn : new.Pairwise (fun f g => f.id < g.id)) (hnid : ∀ g ∈ new, nextId ≤ g.id) :
    ∃ r, applyDeletions removed l = some r ∧
      commitUpdate frags r.2 r.1 new = frags.filterMap (leftOf removed) ++ new := by
  have hadr : ∀ f ∈ frags, ∀ o, o < U32 → f.id * U32 + o ∈ removed → o < f.rows := by
    intro f hf o ho hm
    have := ha _ hm f hf (by omega)
    omega
  have hidu : ∀ f ∈ frags, f.id < U32 := fun f hf => Nat.lt_of_lt_of_le (ht.below f hf) ht.u32
  have hspec := fun f hf => fragChange_spec removed f (ht.ok f hf) (hidu f hf) (hadr f hf)
  obtain ⟨r, h1, h2, h3⟩ := applyDeletions_spec removed l (by
    intro f hf
    rcases hspec f (hl.mem_iff.mp hf) with ⟨h, _⟩ | ⟨d, h, _⟩ | ⟨h, _⟩ <;> rw [h] <;> simp)
  refine ⟨r, h1, ?_⟩
  have hgone : ∀ f ∈ frags, f.id ∈ r.2 ↔ leftOf removed f = none := by
    intro f hf
    rw [h3]
    constructor
    · rintro ⟨f', hf', hc⟩
      have hf' := hl.mem_iff.mp hf'
      have hid : f'.id = f.id := by
        rcases hspec f' hf' with ⟨h, _⟩ | ⟨d, h, _⟩ | ⟨h, _⟩ <;> rw [h] at hc
        · cases hc
        · cases hc
        · simpa using hc
      rw [eq_of_id ht.sorted hf' hf hid] at hc
      unfold leftOf; rw [hc]
    · intro h
      refine ⟨f, hl.mem_iff.mpr hf, ?_⟩
      rcases hspec f hf with ⟨h', _⟩ | ⟨d, h', _⟩ | ⟨h', _⟩
      · unfold leftOf at h; rw [h'] at h; cases h
      · unfold leftOf at h; rw [h'] at h; cases h
      · exact h'
  have hkeep : ∀ f ∈ frags, ∀ g, leftOf removed f = some g → firstUpdated r.1 f = g := by
    intro f hf g hg
    unfold firstUpdated
    have huniq : ∀ u ∈ r.1, u.id = f.id → fragChange removed f = .modified u := by
      intro u hu hid
      obtain ⟨f', hf', hc⟩ := (h2 u).mp hu
      have hf' := hl.mem_iff.mp hf'
      have hid' : u.id = f'.id := by
        rcases hspec f' hf' with ⟨h, _⟩ | ⟨d, h, _⟩ | ⟨h, _⟩ <;> rw [h] at hc <;> cases hc
        rfl
      rw [eq_of_id ht.sorted hf' hf (by rw [← hid', hid])] at hc
      exact hc
    cases hfi : r.1.find? (fun u => u.id == f.id) with
    | some u =>
      have hu := List.mem_of_find?_eq_some hfi
      have hid := List.find?_some hfi
      have := huniq u hu (by simpa using hid)
      unfold leftOf at hg
      rw [this] at hg
      cases hg; rfl
    | none =>
      rw [List.find?_eq_none] at hfi
      rcases hspec f hf with ⟨h, _⟩ | ⟨d, h, _⟩ | ⟨h, _⟩
      · unfold leftOf at hg; rw [h] at hg; cases hg; rfl
      · exfalso
        have := hfi _ ((h2 _).mpr ⟨f, hl.mem_iff.mpr hf, h⟩)
        simp at this
      · unfold leftOf at hg; rw [h] at hg; cases hg
  unfold commitUpdate
  have hmap : (frags.filter (fun f => !r.2.contains f.id)).map (firstUpdated r.1) = frags.filterMap (leftOf removed) := by
    clear hl h1 h2 h3 ha hadr hspec
    have hsub : ∀ l : List (Frag α), (∀ f ∈ l, f ∈ frags) →
        (l.filter (fun f => !r.2.contains f.id)).map (firstUpdated r.1) = l.filterMap (leftOf removed) := by
      intro l
      induction l with
      | nil => intro _; rfl
      | cons f fs ih =>
        intro hs
        have hf := hs f List.mem_cons_self
        have ih := ih (fun g hg => hs g (List.mem_cons_of_mem _ hg))
        rw [List.filter_cons, List.filterMap_cons]
        cases hlo : leftOf removed f with
        | none =>
          have := (hgone f hf).mpr hlo
          rw [if_neg (by simp [this])]
          exact ih
        | some g =>
          have hnot : f.id ∉ r.2 := by
            intro h; rw [(hgone f hf).mp h] at hlo; cases hlo
          rw [if_pos (by simp [hnot]), List.map_cons, hkeep f hf g hlo, ih]
    exact hsub frags (fun _ h => h)
  rw [hmap]
  apply sortBy_of_sorted
  have hid : ∀ f ∈ frags, ∀ g, leftOf removed f = some g → g.id = f.id := fun f hf g hg =>
    ((leftOf_spec removed f (ht.ok f hf) (hidu f hf) (hadr f hf)).1 g hg).2.1
  rw [List.pairwise_append]
  refine ⟨(leftOf_pairwise removed ht.sorted hid).imp (fun h => Nat.le_of_lt h), hn.imp (fun h => Nat.le_of_lt h), ?_⟩
  intro a haa b hb
  obtain ⟨f, hf, hfa⟩ := List.mem_filterMap.mp haa
  have := hid f hf a hfa
  have := ht.below f hf
  have := hnid b hb
  omega

/-- The rows that are left. -/
theorem allRows_left {frags : List (Frag α)} {nextId : Nat} (ht : Table frags nextId) (removed : List Nat)
    (ha : Addresses frags removed) (o : Opts) :
    allRows o (frags.filterMap (leftOf removed)) =
      frags.flatMap (fun f => ((liveOffsets f).filter (fun off => !removed.contains (f.id * U32 + off))).map (rowAt f o)) := by
  have hidu : ∀ f ∈ frags, f.id < U32 := fun f hf => Nat.lt_of_lt_of_le (ht.below f hf) ht.u32
  have hspec : ∀ f ∈ frags, _ := fun f hf => (leftOf_spec removed f (ht.ok f hf) (hidu f hf) (by
    intro off ho hm
    have := ha _ hm f hf (by omega)
    omega)).2 o
  unfold allRows
  clear ha ht hidu
  induction frags with
  | nil => rfl
  | cons f fs ih =>
    have h1 := hspec f List.mem_cons_self
    have ih := ih (fun g hg => hspec g (List.mem_cons_of_mem _ hg))
    rw [List.filterMap_cons, List.flatMap_cons]
    cases hlo : leftOf removed f with
    | none =>
      rw [hlo] at h1
      simp only [Option.toList_none, List.flatMap_nil] at h1
      rw [← h1]; exact ih
    | some g =>
      rw [hlo] at h1
      simp only [Option.toList_some, List.flatMap_cons, List.flatMap_nil, List.append_nil] at h1
      show (g :: _).flatMap _ = _
      rw [List.flatMap_cons, h1, ih]

/-! ## New fragments -/

theorem newFrags_ids [Inhabited α] (id : Nat) (nr : Option Nat) (cs : List (List α)) :
    (newFrags id nr cs).Pairwise (fun f g => f.id < g.id) ∧ ∀ g ∈ newFrags id nr cs, id ≤ g.id := by
  induction cs generalizing id nr with
  | nil => exact ⟨List.Pairwise.nil, by simp [newFrags]⟩
  | cons c cs ih =>
    obtain ⟨h1, h2⟩ := ih (id + 1) (nr.map (· + c.length))
    simp only [newFrags, List.pairwise_cons]
    refine ⟨⟨?_, h1⟩, ?_⟩
    · intro g hg
      have := h2 g hg
      show id < g.id
      omega
    · intro g hg
      rcases List.mem_cons.mp hg with e | hg
      · subst e; exact Nat.le_refl _
      · have := h2 g hg; omega

theorem mkFrag_data [Inhabited α] (o : Opts) (id : Nat) (q : Option Seq) (c : List α) :
    (liveRows o (mkFrag id q c)).map (·.data) = c := by
  have h1 : (List.range c.length).filter (live (none : Option DV)) = List.range c.length := by
    rw [List.filter_eq_self]; intro _ _; rfl
  show (((List.range c.length).filter (live none)).map (rowAt (mkFrag id q c) o)).map (·.data) = c
  rw [h1, List.map_map]
  show (List.range c.length).map (fun i => c.getD i default) = c
  apply List.ext_getElem
  · simp
  · intro i h2 h3; simp [List.getD_eq_getElem?_getD, h3]

theorem newFrags_data [Inhabited α] (o : Opts) (id : Nat) (nr : Option Nat) (cs : List (List α)) :
    (allRows o (newFrags id nr cs)).map (·.data) = cs.flatten := by
  induction cs generalizing id nr with
  | nil => rfl
  | cons c cs ih =>
    simp only [newFrags, allRows, List.flatMap_cons, List.map_append, List.flatten_cons]
    rw [mkFrag_data]
    congr 1
    exact ih _ _

theorem newFrags_rows [Inhabited α] (id : Nat) (nr : Option Nat) (cs : List (List α)) :
    ((newFrags id nr cs).map (·.rows)).sum = cs.flatten.length := by
  induction cs generalizing id nr with
  | nil => rfl
  | cons c cs ih =>
    simp only [newFrags, List.map_cons, List.sum_cons, List.flatten_cons, List.length_append]
    rw [ih]; rfl

/-! ## Captured row ids -/

theorem append_sorted (l captured : List Nat) (h : (captured ++ l).Pairwise (· < ·)) :
    append captured l = some (captured ++ l) := by
  induction l generalizing captured with
  | nil => simp [append]
  | cons i is ih =>
    have h' : ((captured ++ [i]) ++ is).Pairwise (· < ·) := by simpa using h
    unfold append
    cases hg : captured.getLast? with
    | none =>
      have : captured = [] := by simpa using hg
      subst this
      simp only
      rw [ih [i] (by simpa using h)]; rfl
    | some m =>
      have hm : m ∈ captured := List.mem_of_getLast? hg
      have := (List.pairwise_append.mp h).2.2 m hm i (by simp)
      simp only
      rw [if_neg (by omega), ih _ h']
      simp

theorem append_error (l captured : List Nat) (hc : captured.Pairwise (· < ·))
    (h : ¬ (captured ++ l).Pairwise (· < ·)) : append captured l = none := by
  induction l generalizing captured with
  | nil => simp at h; exact absurd hc h
  | cons i is ih =>
    unfold append
    cases hg : captured.getLast? with
    | none =>
      have : captured = [] := by simpa using hg
      subst this
      exact ih [i] (by simp) (by simpa using h)
    | some m =>
      simp only
      split
      · rfl
      · rename_i hlt
        apply ih
        · rw [List.pairwise_append]
          refine ⟨hc, by simp, ?_⟩
          intro a ha b hb
          simp at hb; subst hb
          obtain ⟨pre, hp⟩ := List.getLast?_eq_some_iff.mp hg
          rw [hp, List.pairwise_append] at hc
          rw [hp] at ha
          rcases List.mem_append.mp ha with h1 | h1
          · have := hc.2.2 a h1 m (by simp); omega
          · simp at h1; omega
        · simpa using h

theorem capture_sorted (bs : List (List (Row α))) (captured : List Nat)
    (h : (captured ++ bs.flatten.map (fun r => idValue r.id)).Pairwise (· < ·)) :
    capture captured bs = some (captured ++ bs.flatten.map (fun r => idValue r.id), bs.map (List.map (·.data))) := by
  induction bs generalizing captured with
  | nil => simp [capture]
  | cons b bs ih =>
    simp only [List.flatten_cons, List.map_append] at h
    rw [← List.append_assoc] at h
    unfold capture
    rw [append_sorted _ _ (List.pairwise_append.mp h).1]
    simp only
    rw [ih _ h]
    simp

theorem capture_error (bs : List (List (Row α))) (captured : List Nat) (hc : captured.Pairwise (· < ·))
    (h : ¬ (captured ++ bs.flatten.map (fun r => idValue r.id)).Pairwise (· < ·)) :
    capture captured bs = none := by
  induction bs generalizing captured with
  | nil => simp at h; exact absurd hc h
  | cons b bs ih =>
    simp only [List.flatten_cons, List.map_append] at h
    rw [← List.append_assoc] at h
    unfold capture
    by_cases hb : (captured ++ b.map (fun r => idValue r.id)).Pairwise (· < ·)
    · rw [append_sorted _ _ hb]
      simp only
      rw [ih _ hb h]
    · rw [append_error _ _ hc hb]

/-! ## apply_updates row by row -/

variable {V : Type}

/-- One row through the assignments in order. -/
def updateRow : List (Nat × (Tuple V → Option V)) → Tuple V → Option (Tuple V)
  | [], r => some r
  | (c, e) :: us, r =>
    match e r with
    | none => none
    | some v => updateRow us (r.set c v)

/-- All rows, or an error. -/
def mapRows {β γ : Type} (g : β → Option γ) : List β → Option (List γ)
  | [] => some []
  | r :: rs =>
    match g r, mapRows g rs with
    | some v, some vs => some (v :: vs)
    | _, _ => none

theorem evalBatch_eq (e : Tuple V → Option V) (b : List (Tuple V)) : evalBatch e b = mapRows e b := by
  induction b with
  | nil => rfl
  | cons r rs ih => unfold evalBatch mapRows; rw [ih]; cases e r <;> cases mapRows e rs <;> rfl

theorem mapRows_some {β γ : Type} (g : β → Option γ) (h : β → γ) (l : List β) (hl : ∀ x ∈ l, g x = some (h x)) :
    mapRows g l = some (l.map h) := by
  induction l with
  | nil => rfl
  | cons a l ih =>
    unfold mapRows
    rw [hl a List.mem_cons_self, ih (fun x hx => hl x (List.mem_cons_of_mem _ hx))]
    rfl

theorem mapRows_none {β γ : Type} (g : β → Option γ) (l : List β) (hl : ∃ x ∈ l, g x = none) : mapRows g l = none := by
  induction l with
  | nil => obtain ⟨x, hx, _⟩ := hl; cases hx
  | cons a l ih =>
    unfold mapRows
    obtain ⟨x, hx, he⟩ := hl
    rcases List.mem_cons.mp hx with e | hx
    · subst e; rw [he]
    · rw [ih ⟨x, hx, he⟩]; cases g a <;> rfl

theorem mapRows_cases {β γ : Type} (g : β → Option γ) (l : List β) :
    (∃ x ∈ l, g x = none) ∨ ∀ x ∈ l, ∃ v, g x = some v := by
  induction l with
  | nil => right; intro x hx; cases hx
  | cons a l ih =>
    cases ha : g a with
    | none => left; exact ⟨a, List.mem_cons_self, ha⟩
    | some v =>
      rcases ih with ⟨x, hx, he⟩ | h
      · left; exact ⟨x, List.mem_cons_of_mem _ hx, he⟩
      · right
        intro x hx
        rcases List.mem_cons.mp hx with e | hx
        · subst e; exact ⟨v, ha⟩
        · exact h x hx

theorem replaceColumn_map (c : Nat) (h : Tuple V → V) (b : List (Tuple V)) :
    replaceColumn c (b.map h) b = b.map (fun r => r.set c (h r)) := by
  unfold replaceColumn
  induction b with
  | nil => rfl
  | cons r rs ih => simp only [List.map_cons, List.zip_cons_cons, ih]

theorem mapRows_map {β γ δ : Type} (g : γ → Option δ) (k : β → γ) (l : List β) :
    mapRows g (l.map k) = mapRows (fun x => g (k x)) l := by
  induction l with
  | nil => rfl
  | cons a l ih => simp only [List.map_cons, mapRows, ih]

theorem mapRows_congr {β γ : Type} {g h : β → Option γ} {l : List β} (hl : ∀ x ∈ l, g x = h x) :
    mapRows g l = mapRows h l := by
  induction l with
  | nil => rfl
  | cons a l ih =>
    unfold mapRows
    rw [hl a List.mem_cons_self, ih (fun x hx => hl x (List.mem_cons_of_mem _ hx))]

theorem applyUpdates_eq (us : List (Nat × (Tuple V → Option V))) (b : List (Tuple V)) :
    applyUpdates us b = mapRows (updateRow us) b := by
  induction us generalizing b with
  | nil =>
    rw [mapRows_some (updateRow []) id b (fun _ _ => rfl)]
    simp [applyUpdates]
  | cons u us ih =>
    obtain ⟨c, e⟩ := u
    unfold applyUpdates
    rw [evalBatch_eq]
    rcases mapRows_cases e b with h | h
    · rw [mapRows_none e b h]
      obtain ⟨x, hx, he⟩ := h
      rw [mapRows_none _ _ ⟨x, hx, by unfold updateRow; rw [he]⟩]
    · cases b with
      | nil => exact ih []
      | cons r rs =>
        obtain ⟨v0, hv0⟩ := h r List.mem_cons_self
        have hd : ∀ x ∈ r :: rs, e x = some ((e x).getD v0) := by
          intro x hx
          obtain ⟨v, hv⟩ := h x hx
          simp [hv]
        rw [mapRows_some e (fun x => (e x).getD v0) _ hd]
        simp only
        rw [replaceColumn_map, ih, mapRows_map]
        apply mapRows_congr
        intro x hx
        conv => rhs; unfold updateRow
        rw [hd x hx]
        simp

theorem mapRows_append {β γ : Type} (g : β → Option γ) (a b : List β) :
    mapRows g (a ++ b) = match mapRows g a, mapRows g b with
      | some x, some y => some (x ++ y)
      | _, _ => none := by
  induction a with
  | nil => simp only [List.nil_append, mapRows]; cases mapRows g b <;> rfl
  | cons x a ih =>
    simp only [List.cons_append, mapRows, ih]
    cases g x <;> cases mapRows g a <;> cases mapRows g b <;> rfl

theorem updateBatches_eq (us : List (Nat × (Tuple V → Option V))) (bs : List (List (Tuple V))) :
    updateBatches us bs = mapRows (updateRow us) bs.flatten := by
  induction bs with
  | nil => rfl
  | cons b bs ih =>
    rw [List.flatten_cons, mapRows_append]
    unfold updateBatches
    rw [applyUpdates_eq, ih]
    cases mapRows (updateRow us) b <;> cases mapRows (updateRow us) bs.flatten <;> rfl

end Verif.Update
