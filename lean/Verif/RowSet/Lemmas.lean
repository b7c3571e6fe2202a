import Verif.RowSet.Model

/-! Helper lemmas for row sets. -/
namespace Verif.RowSet
open Verif

theorem shiftRight_div (a : Nat) : a >>> 32 = a / U32 := by
  rw [Nat.shiftRight_eq_div_pow]

theorem fragmentId_eq {a : Nat} (h : a < U32 * U32) : fragmentId a = a / U32 := by
  unfold fragmentId
  rw [shiftRight_div, Nat.mod_eq_of_lt]
  exact Nat.div_lt_of_lt_mul h

theorem newFromParts_eq {f o : Nat} (ho : o < U32) : newFromParts f o = f * U32 + o := by
  unfold newFromParts
  rw [← Nat.shiftLeft_add_eq_or_of_lt (i := 32) ho f, Nat.shiftLeft_eq]

theorem fragmentId_lt (a : Nat) : fragmentId a < U32 := Nat.mod_lt _ (by decide)
theorem rowOffset_lt (a : Nat) : rowOffset a < U32 := Nat.mod_lt _ (by decide)

theorem addr_split {a : Nat} (h : a < U32 * U32) : a = fragmentId a * U32 + rowOffset a := by
  rw [fragmentId_eq h]; unfold rowOffset; omega

theorem addr_ext {a b : Nat} (ha : a < U32 * U32) (hb : b < U32 * U32)
    (hf : fragmentId a = fragmentId b) (ho : rowOffset a = rowOffset b) : a = b := by
  rw [addr_split ha, addr_split hb, hf, ho]

/-- Does the entry (if any) select the offset? -/
def selHas : Option Sel → Nat → Bool
  | none, _ => false
  | some .full, _ => true
  | some (.part s), o => s.has o

/-- Membership at a (fragment, offset) pair. -/
def memAt (m : TreeMap) (f o : Nat) : Bool := selHas (m.get f) o

theorem contains_eq (m : TreeMap) (v : Nat) :
    contains m v = memAt m (fragmentId v) (rowOffset v) := by
  unfold contains memAt selHas
  cases m.get (fragmentId v) with
  | none => rfl
  | some s => cases s <;> rfl

theorem memAt_smap_insert (m : TreeMap) (k : Nat) (s : Sel) (f o : Nat) :
    memAt (SMap.insert k s m) f o = if f = k then selHas (some s) o else memAt m f o := by
  unfold memAt
  rw [SMap.get_insert]
  split <;> rfl

theorem memAt_smap_erase (m : TreeMap) (k : Nat) (f o : Nat) :
    memAt (SMap.erase k m) f o = if f = k then false else memAt m f o := by
  unfold memAt
  rw [SMap.get_erase]
  split <;> rfl

theorem memAt_insert (m : TreeMap) (v f o : Nat) :
    memAt (insert m v) f o = true ↔ memAt m f o = true ∨ (f = fragmentId v ∧ o = rowOffset v) := by
  unfold insert
  cases hg : m.get (fragmentId v) with
  | none =>
    simp only [memAt_smap_insert]
    by_cases hf : f = fragmentId v
    · subst hf; simp [selHas, memAt, hg, Bm.insert, Bm.has]
    · simp [hf]
  | some s =>
    cases s with
    | full =>
      by_cases hf : f = fragmentId v
      · subst hf; simp [selHas, memAt, hg]
      · simp [hf]
    | part s =>
      simp only [memAt_smap_insert]
      by_cases hf : f = fragmentId v
      · subst hf; simp [selHas, memAt, hg]; exact Or.comm
      · simp [hf]

theorem memAt_insertRangeBody (m : TreeMap) (k lo hi f o : Nat) :
    memAt (insertRangeBody m k lo hi) f o = true ↔
      memAt m f o = true ∨ (f = k ∧ lo ≤ o ∧ o ≤ hi) := by
  unfold insertRangeBody
  cases hg : m.get k with
  | none =>
    simp only [memAt_smap_insert]
    by_cases hf : f = k
    · subst hf
      simp only [if_true, selHas, memAt, hg, Bm.has_iff, Bm.mem_union, Bm.mem_range, List.not_mem_nil]
      constructor
      · rintro (h | h)
        · exact absurd h (by simp)
        · exact Or.inr ⟨trivial, by omega, by omega⟩
      · rintro (h | h)
        · exact absurd h (by simp)
        · right; omega
    · simp [hf]
  | some s =>
    cases s with
    | full =>
      by_cases hf : f = k
      · subst hf; simp [selHas, memAt, hg]
      · simp [hf]
    | part s =>
      simp only [memAt_smap_insert]
      by_cases hf : f = k
      · subst hf
        simp only [if_true, selHas, memAt, hg, Bm.has_iff, Bm.mem_union, Bm.mem_range]
        constructor
        · rintro (h | h)
          · exact Or.inl h
          · exact Or.inr ⟨trivial, by omega, by omega⟩
        · rintro (h | h)
          · exact Or.inl h
          · right; omega
      · simp [hf]

theorem memAt_insertRangeLoop (n : Nat) (m : TreeMap) (sh sl eh el f o : Nat)
    (hn : n = eh + 1 - sh) (ho : o < U32) :
    memAt (insertRangeLoop n m sh sl eh el) f o = true ↔
      memAt m f o = true ∨
        (sh ≤ f ∧ f ≤ eh ∧ (f = sh → sl ≤ o) ∧ (f = eh → o ≤ el)) := by
  induction n generalizing m sh sl with
  | zero =>
    simp only [insertRangeLoop]
    constructor
    · exact Or.inl
    · rintro (h | h)
      · exact h
      · omega
  | succ n ih =>
    simp only [insertRangeLoop]
    rw [ih _ (sh + 1) 0 (by omega), memAt_insertRangeBody]
    by_cases hse : sh = eh
    · simp only [hse, if_true]
      constructor
      · rintro ((h | h) | h)
        · exact Or.inl h
        · right; omega
        · right; omega
      · rintro (h | h)
        · exact Or.inl (Or.inl h)
        · left; right; omega
    · simp only [hse, if_false]
      constructor
      · rintro ((h | h) | h)
        · exact Or.inl h
        · right; omega
        · right; omega
      · rintro (h | h)
        · exact Or.inl (Or.inl h)
        · by_cases hf : f = sh
          · left; right; omega
          · right; omega

theorem memAt_insertFragment (m : TreeMap) (k f o : Nat) :
    memAt (insertFragment m k) f o = true ↔ memAt m f o = true ∨ f = k := by
  unfold insertFragment
  rw [memAt_smap_insert]
  by_cases hf : f = k <;> simp [hf, selHas]

theorem memAt_insertBitmap (m : TreeMap) (k : Nat) (s : Bm) (f o : Nat) :
    memAt (insertBitmap m k s) f o = true ↔ (if f = k then o ∈ s else memAt m f o = true) := by
  unfold insertBitmap
  rw [memAt_smap_insert]
  by_cases hf : f = k <;> simp [hf, selHas]

theorem mem_fullBm (o : Nat) : o ∈ fullBm ↔ o < U32 := by
  unfold fullBm; rw [Bm.mem_range]; omega

theorem memAt_remove (m : TreeMap) (v f o : Nat) (ho : o < U32) :
    memAt (remove m v) f o = true ↔ memAt m f o = true ∧ ¬ (f = fragmentId v ∧ o = rowOffset v) := by
  unfold remove
  cases hg : m.get (fragmentId v) with
  | none =>
    by_cases hf : f = fragmentId v
    · subst hf; simp [memAt, hg, selHas]
    · simp [hf]
  | some s =>
    cases s with
    | full =>
      simp only [memAt_smap_insert]
      by_cases hf : f = fragmentId v
      · subst hf; simp [selHas, memAt, hg, mem_fullBm, ho]
      · simp [hf]
    | part s =>
      simp only
      split
      · rename_i he
        rw [memAt_smap_erase]
        by_cases hf : f = fragmentId v
        · subst hf
          simp [selHas, memAt, hg]
          intro hm
          false_or_by_contra
          rename_i hne
          have : o ∈ Bm.remove (rowOffset v) s := (Bm.mem_remove _ _ _).2 ⟨hm, hne⟩
          rw [he] at this; simp at this
        · simp [hf]
      · simp only [memAt_smap_insert]
        by_cases hf : f = fragmentId v
        · subst hf; simp [selHas, memAt, hg]
        · simp [hf]

theorem memAt_retainFragments (m : TreeMap) (hs : m.Sorted) (frags : List Nat) (f o : Nat) :
    memAt (retainFragments m frags) f o = true ↔ memAt m f o = true ∧ f ∈ frags := by
  unfold retainFragments memAt
  rw [SMap.get_retain _ _ _ hs]
  cases hg : m.get f with
  | none => simp [selHas]
  | some s =>
    by_cases hf : f ∈ frags
    · simp [Option.filter, hf]
    · simp [Option.filter, hf, selHas]

/-! ### Folds that touch one key per entry -/

/-- A step that only changes the entry at its own key, by `g`. -/
structure Local (step : TreeMap → Nat × Sel → TreeMap) (g : Option Sel → Sel → Option Sel) : Prop where
  get : ∀ m e k, SMap.get k (step m e) = if k = e.1 then g (SMap.get k m) e.2 else SMap.get k m

theorem get_foldl_local {step g} (hl : Local step g) (rhs : TreeMap) (hs : rhs.Sorted) (m : TreeMap) (k : Nat) :
    SMap.get k (rhs.foldl step m) =
      match SMap.get k rhs with
      | none => SMap.get k m
      | some s => g (SMap.get k m) s := by
  induction rhs generalizing m with
  | nil => rfl
  | cons e rhs ih =>
    obtain ⟨k', s⟩ := e
    simp only [List.foldl_cons]
    rw [ih hs.tail, hl.get]
    simp only [SMap.get]
    by_cases hk : k' = k
    · subst hk
      have : SMap.get k' rhs = none := by
        cases hg : SMap.get k' rhs with
        | none => rfl
        | some w =>
          have := (List.pairwise_cons.1 hs).1 _ (SMap.get_some_mem hg)
          simp at this
      simp [this]
    · have hk' : ¬ k = k' := fun e => hk e.symm
      simp only [hk, hk', if_false]

/-- Effect of `|=` on one entry. -/
def orSel : Option Sel → Sel → Option Sel
  | none, s => some s
  | some .full, _ => some .full
  | some (.part l), .part r => some (.part (Bm.union l r))
  | some (.part l), .full => some (.part l)

theorem local_or : Local orStep orSel := ⟨by
  intro m e k
  obtain ⟨f, s⟩ := e
  unfold orStep
  simp only
  cases hg : SMap.get f m with
  | none =>
    simp only [SMap.get_insert]
    by_cases hk : k = f
    · subst hk; simp [hg, orSel]
    · simp [hk]
  | some l =>
    cases l with
    | full =>
      by_cases hk : k = f
      · subst hk; simp [hg, orSel]
      · simp [hk]
    | part l =>
      cases s with
      | full =>
        by_cases hk : k = f
        · subst hk; simp [hg, orSel]
        · simp [hk]
      | part r =>
        simp only [SMap.get_insert]
        by_cases hk : k = f
        · subst hk; simp [hg, orSel]
        · simp [hk]⟩

theorem get_or (m rhs : TreeMap) (hs : rhs.Sorted) (k : Nat) :
    SMap.get k (or m rhs) = match SMap.get k rhs with
      | none => SMap.get k m
      | some s => orSel (SMap.get k m) s :=
  get_foldl_local local_or rhs hs m k

/-- `|=` is union, except at a fragment that is partial on the left and whole on the right. -/
theorem memAt_or (m rhs : TreeMap) (hs : rhs.Sorted) (f o : Nat)
    (h : ∀ l, SMap.get f m = some (.part l) → SMap.get f rhs ≠ some .full) :
    memAt (or m rhs) f o = true ↔ memAt m f o = true ∨ memAt rhs f o = true := by
  unfold memAt
  rw [get_or m rhs hs]
  cases hr : SMap.get f rhs with
  | none => simp [selHas]
  | some s =>
    cases hm : SMap.get f m with
    | none => simp [selHas, orSel]
    | some l =>
      cases l with
      | full => simp [selHas, orSel]
      | part l =>
        cases s with
        | full => exact absurd hr (h l hm)
        | part r => simp [selHas, orSel]

/-- At a fragment that is partial on the left and whole on the right `|=` keeps the left side. -/
theorem memAt_or_lost (m rhs : TreeMap) (hs : rhs.Sorted) (f o : Nat) (l : Bm)
    (hm : SMap.get f m = some (.part l)) (hr : SMap.get f rhs = some .full) :
    memAt (or m rhs) f o = memAt m f o := by
  unfold memAt
  rw [get_or m rhs hs, hr, hm]
  rfl

/-- Effect of `-=` on one entry. -/
def subSel : Option Sel → Sel → Option Sel
  | none, _ => none
  | some .full, .full => none
  | some .full, .part r => some (.part (Bm.diff fullBm r))
  | some (.part _), .full => none
  | some (.part l), .part r => if Bm.diff l r = [] then none else some (.part (Bm.diff l r))

theorem local_sub : Local subStep subSel := ⟨by
  intro m e k
  obtain ⟨f, s⟩ := e
  unfold subStep
  simp only
  cases hg : SMap.get f m with
  | none =>
    by_cases hk : k = f
    · subst hk; simp [hg, subSel]
    · simp [hk]
  | some l =>
    cases l with
    | full =>
      cases s with
      | full =>
        simp only [SMap.get_erase]
        by_cases hk : k = f
        · subst hk; simp [hg, subSel]
        · simp [hk]
      | part r =>
        simp only [SMap.get_insert]
        by_cases hk : k = f
        · subst hk; simp [hg, subSel]
        · simp [hk]
    | part l =>
      cases s with
      | full =>
        simp only [SMap.get_erase]
        by_cases hk : k = f
        · subst hk; simp [hg, subSel]
        · simp [hk]
      | part r =>
        simp only
        split
        · rename_i he
          simp only [SMap.get_erase]
          by_cases hk : k = f
          · subst hk; simp [hg, subSel, he]
          · simp [hk]
        · rename_i he
          simp only [SMap.get_insert]
          by_cases hk : k = f
          · subst hk; simp [hg, subSel, he]
          · simp [hk]⟩

theorem memAt_sub (m rhs : TreeMap) (hs : rhs.Sorted) (f o : Nat) (ho : o < U32) :
    memAt (sub m rhs) f o = true ↔ memAt m f o = true ∧ ¬ memAt rhs f o = true := by
  unfold memAt sub
  rw [get_foldl_local local_sub rhs hs]
  cases hr : SMap.get f rhs with
  | none => simp [selHas]
  | some s =>
    cases hm : SMap.get f m with
    | none => simp [selHas, subSel]
    | some l =>
      cases l with
      | full =>
        cases s with
        | full => simp [selHas, subSel]
        | part r => simp [selHas, subSel, mem_fullBm, ho]
      | part l =>
        cases s with
        | full => simp [selHas, subSel]
        | part r =>
          simp only [subSel]
          split
          · rename_i he
            have : ∀ x, ¬ (x ∈ l ∧ x ∉ r) := by
              intro x hx
              have := (Bm.mem_diff x l r).2 hx
              rw [he] at this; simp at this
            simp only [selHas, Bm.has_iff]
            constructor
            · intro h; simp at h
            · intro h; exact absurd h (this o)
          · simp [selHas]

/-- Effect of `extend` on one entry. -/
def extSel : Option Sel → Sel → Option Sel
  | none, s => some s
  | some .full, _ => some .full
  | some (.part l), .part r => some (.part (Bm.union l r))
  | some (.part _), .full => some .full

theorem local_ext : Local extendStep extSel := ⟨by
  intro m e k
  obtain ⟨f, s⟩ := e
  unfold extendStep
  simp only
  cases hg : SMap.get f m with
  | none =>
    simp only [SMap.get_insert]
    by_cases hk : k = f
    · subst hk; simp [hg, extSel]
    · simp [hk]
  | some l =>
    cases l with
    | full =>
      by_cases hk : k = f
      · subst hk; simp [hg, extSel]
      · simp [hk]
    | part l =>
      cases s with
      | full =>
        simp only [SMap.get_insert]
        by_cases hk : k = f
        · subst hk; simp [hg, extSel]
        · simp [hk]
      | part r =>
        simp only [SMap.get_insert]
        by_cases hk : k = f
        · subst hk; simp [hg, extSel]
        · simp [hk]⟩

theorem memAt_ext (m rhs : TreeMap) (hs : rhs.Sorted) (f o : Nat) :
    memAt (rhs.foldl extendStep m) f o = true ↔ memAt m f o = true ∨ memAt rhs f o = true := by
  unfold memAt
  rw [get_foldl_local local_ext rhs hs]
  cases hr : SMap.get f rhs with
  | none => simp [selHas]
  | some s =>
    cases hm : SMap.get f m with
    | none => simp [selHas, extSel]
    | some l => cases l <;> cases s <;> simp [selHas, extSel]

theorem memAt_extendMaps (others : List TreeMap) (m : TreeMap) (hs : ∀ t ∈ others, SMap.Sorted t) (f o : Nat) :
    memAt (extendMaps m others) f o = true ↔
      memAt m f o = true ∨ ∃ t ∈ others, memAt t f o = true := by
  unfold extendMaps
  induction others generalizing m with
  | nil => simp
  | cons t ts ih =>
    simp only [List.foldl_cons]
    rw [ih _ (fun t' h => hs t' (List.mem_cons_of_mem _ h)), memAt_ext _ _ (hs t (by simp))]
    simp only [List.mem_cons, exists_eq_or_imp, or_assoc]

theorem memAt_extendIds (ids : List Nat) (m : TreeMap) (f o : Nat) :
    memAt (extendIds m ids) f o = true ↔
      memAt m f o = true ∨ ∃ v ∈ ids, f = fragmentId v ∧ o = rowOffset v := by
  unfold extendIds
  induction ids generalizing m with
  | nil => simp
  | cons v vs ih =>
    simp only [List.foldl_cons]
    rw [ih, memAt_insert]
    simp only [List.mem_cons, exists_eq_or_imp, or_assoc]

theorem memAt_and (m rhs : TreeMap) (hm : m.Sorted) (f o : Nat) :
    memAt (and m rhs) f o = true ↔ memAt m f o = true ∧ memAt rhs f o = true := by
  unfold and memAt
  simp only
  rw [SMap.get_retain _ _ _ (SMap.sorted_mapVals _ _ (SMap.sorted_retain _ _ hm)),
    SMap.get_mapVals, SMap.get_retain _ _ _ hm]
  cases hg : SMap.get f m with
  | none => simp [selHas, Option.filter]
  | some l =>
    cases hr : SMap.get f rhs with
    | none => simp [selHas, Option.filter]
    | some s =>
      have key : ∀ b : Bm, (selHas (Option.filter (fun s => Sel.nonEmpty s) (some (Sel.part b))) o = true)
          ↔ o ∈ b := by
        intro b
        cases b with
        | nil => simp [Option.filter, Sel.nonEmpty, selHas]
        | cons x xs => simp [Option.filter, Sel.nonEmpty, selHas]
      cases l with
      | full =>
        cases s with
        | full => simp [Option.filter, andSel, hr, Sel.nonEmpty, selHas]
        | part r =>
          have : Option.map (andSel rhs f) (Option.filter (fun _ => (some (Sel.part r)).isSome) (some Sel.full))
              = some (Sel.part r) := by simp [Option.filter, andSel, hr]
          rw [this, key]; simp [selHas]
      | part l =>
        cases s with
        | full =>
          have : Option.map (andSel rhs f) (Option.filter (fun _ => (some Sel.full).isSome) (some (Sel.part l)))
              = some (Sel.part l) := by simp [Option.filter, andSel, hr]
          rw [this, key]; simp [selHas]
        | part r =>
          have : Option.map (andSel rhs f) (Option.filter (fun _ => (some (Sel.part r)).isSome) (some (Sel.part l)))
              = some (Sel.part (Bm.inter l r)) := by simp [Option.filter, andSel, hr]
          rw [this, key]; simp [selHas]

end Verif.RowSet
