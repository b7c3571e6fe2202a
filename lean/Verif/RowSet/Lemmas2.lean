import Verif.RowSet.Lemmas

/-! Sortedness is preserved, and serialization lemmas. -/
namespace Verif.RowSet
open Verif

theorem sorted_insert (m : TreeMap) (v : Nat) (h : m.Sorted) : (insert m v).Sorted := by
  unfold insert; split <;> first | exact h | exact SMap.sorted_insert _ _ _ h

theorem sorted_insertRangeBody (m : TreeMap) (k lo hi : Nat) (h : m.Sorted) :
    (insertRangeBody m k lo hi).Sorted := by
  unfold insertRangeBody; split <;> first | exact h | exact SMap.sorted_insert _ _ _ h

theorem sorted_insertRangeLoop (n : Nat) (m : TreeMap) (sh sl eh el : Nat) (h : m.Sorted) :
    (insertRangeLoop n m sh sl eh el).Sorted := by
  induction n generalizing m sh sl with
  | zero => exact h
  | succ n ih => exact ih _ _ _ (sorted_insertRangeBody _ _ _ _ h)

theorem sorted_remove (m : TreeMap) (v : Nat) (h : m.Sorted) : (remove m v).Sorted := by
  unfold remove
  split
  · exact h
  · exact SMap.sorted_insert _ _ _ h
  · simp only; split
    · exact SMap.sorted_erase _ _ h
    · exact SMap.sorted_insert _ _ _ h

theorem sorted_orStep (m : TreeMap) (e : Nat × Sel) (h : m.Sorted) : (orStep m e).Sorted := by
  unfold orStep; split <;> first | exact h | exact SMap.sorted_insert _ _ _ h

theorem sorted_or (m rhs : TreeMap) (h : m.Sorted) : (or m rhs).Sorted := by
  unfold or
  induction rhs generalizing m with
  | nil => exact h
  | cons e rhs ih => exact ih _ (sorted_orStep m e h)

theorem sorted_and (m rhs : TreeMap) (h : m.Sorted) : (and m rhs).Sorted := by
  unfold and
  exact SMap.sorted_retain _ _ (SMap.sorted_mapVals _ _ (SMap.sorted_retain _ _ h))

theorem sorted_subStep (m : TreeMap) (e : Nat × Sel) (h : m.Sorted) : (subStep m e).Sorted := by
  unfold subStep
  split
  · exact h
  · exact SMap.sorted_erase _ _ h
  · exact SMap.sorted_insert _ _ _ h
  · exact SMap.sorted_erase _ _ h
  · simp only; split
    · exact SMap.sorted_erase _ _ h
    · exact SMap.sorted_insert _ _ _ h

theorem sorted_sub (m rhs : TreeMap) (h : m.Sorted) : (sub m rhs).Sorted := by
  unfold sub
  induction rhs generalizing m with
  | nil => exact h
  | cons e rhs ih => exact ih _ (sorted_subStep m e h)

theorem sorted_extendStep (m : TreeMap) (e : Nat × Sel) (h : m.Sorted) : (extendStep m e).Sorted := by
  unfold extendStep; split <;> first | exact h | exact SMap.sorted_insert _ _ _ h

theorem sorted_extendMaps (m : TreeMap) (others : List TreeMap) (h : m.Sorted) :
    (extendMaps m others).Sorted := by
  unfold extendMaps
  induction others generalizing m with
  | nil => exact h
  | cons t ts ih =>
    refine ih _ ?_
    clear ih
    induction t generalizing m with
    | nil => exact h
    | cons e t iht => exact iht _ (sorted_extendStep m e h)

theorem sorted_extendIds (m : TreeMap) (ids : List Nat) (h : m.Sorted) : (extendIds m ids).Sorted := by
  unfold extendIds
  induction ids generalizing m with
  | nil => exact h
  | cons v vs ih => exact ih _ (sorted_insert m v h)

/-! ### `union_all` -/

theorem foldl_union_mem (sels : List Sel) (acc : Bm) (o : Nat) (hnf : Sel.full ∉ sels) :
    o ∈ sels.foldl accSel acc ↔
      o ∈ acc ∨ ∃ s ∈ sels, selHas (some s) o = true := by
  induction sels generalizing acc with
  | nil => simp
  | cons s ss ih =>
    simp only [List.foldl_cons]
    rw [ih _ (fun h => hnf (List.mem_cons_of_mem _ h))]
    cases s with
    | full => exact absurd List.mem_cons_self hnf
    | part b => simp [selHas, accSel, or_assoc]

theorem unionSels_has (sels : List Sel) (o : Nat) :
    selHas (some (unionSels sels)) o = true ↔ ∃ s ∈ sels, selHas (some s) o = true := by
  unfold unionSels
  by_cases h : Sel.full ∈ sels
  · simp only [List.contains_iff_mem, h, if_true]
    simp only [selHas, true_iff]
    exact ⟨_, h, rfl⟩
  · simp only [List.contains_iff_mem, h, if_false]
    have := foldl_union_mem sels [] o h
    simp only [List.not_mem_nil, false_or] at this
    rw [← this]
    simp [selHas]

theorem get_collect (m : TreeMap) (hs : m.Sorted) (acc : SMap (List Sel)) (k : Nat) :
    SMap.get k (m.foldl collectStep acc) =
      match SMap.get k m with
      | none => SMap.get k acc
      | some s => some ((SMap.get k acc).getD [] ++ [s]) := by
  induction m generalizing acc with
  | nil => rfl
  | cons e m ih =>
    obtain ⟨k', s⟩ := e
    simp only [List.foldl_cons]
    rw [ih hs.tail]
    simp only [collectStep, SMap.get_insert, SMap.get]
    by_cases hk : k' = k
    · subst hk
      have : SMap.get k' m = none := by
        cases hg : SMap.get k' m with
        | none => rfl
        | some w =>
          have := (List.pairwise_cons.1 hs).1 _ (SMap.get_some_mem hg)
          simp at this
      simp [this]
    · have hk' : ¬ k = k' := fun e => hk e.symm
      simp only [hk, hk', if_false]

theorem get_collectAll (maps : List TreeMap) (hs : ∀ t ∈ maps, SMap.Sorted t)
    (acc : SMap (List Sel)) (k o : Nat) :
    ((∃ l, SMap.get k (maps.foldl (fun acc (m : TreeMap) => m.foldl collectStep acc) acc) = some l ∧
        ∃ s ∈ l, selHas (some s) o = true) ↔
      (∃ l, SMap.get k acc = some l ∧ ∃ s ∈ l, selHas (some s) o = true) ∨
        ∃ t ∈ maps, memAt t k o = true) := by
  induction maps generalizing acc with
  | nil => simp
  | cons t ts ih =>
    simp only [List.foldl_cons]
    rw [ih (fun t' h => hs t' (List.mem_cons_of_mem _ h)), get_collect t (hs t (by simp))]
    simp only [List.mem_cons, exists_eq_or_imp, ← or_assoc]
    refine or_congr ?_ Iff.rfl
    unfold memAt
    cases hg : SMap.get k t with
    | none => simp [selHas]
    | some s =>
      cases ha : SMap.get k acc with
      | none => simp
      | some l =>
        simp only [Option.getD_some, Option.some.injEq, exists_eq_left', List.mem_append,
          List.mem_cons, List.not_mem_nil, or_false]
        constructor
        · rintro ⟨s', h | h, h'⟩
          · exact Or.inl ⟨s', h, h'⟩
          · subst h; exact Or.inr h'
        · rintro (⟨s', h, h'⟩ | h)
          · exact ⟨s', Or.inl h, h'⟩
          · exact ⟨s, Or.inr rfl, h⟩

theorem memAt_unionAll (maps : List TreeMap) (hs : ∀ t ∈ maps, SMap.Sorted t) (f o : Nat) :
    memAt (unionAll maps) f o = true ↔ ∃ t ∈ maps, memAt t f o = true := by
  have h := get_collectAll maps hs [] f o
  simp only [SMap.get_nil, reduceCtorEq, false_and, exists_false, false_or] at h
  rw [← h]
  unfold unionAll memAt
  simp only
  rw [SMap.get_mapVals]
  cases SMap.get f (maps.foldl (fun acc (m : TreeMap) => m.foldl collectStep acc) []) with
  | none => simp [selHas]
  | some l =>
    simp only [Option.map_some]
    rw [unionSels_has]
    constructor
    · rintro ⟨s, h⟩; exact ⟨l, rfl, s, h⟩
    · rintro ⟨l', h, s, h'⟩; cases h; exact ⟨s, h'⟩

/-! ### Serialization -/

theorem readU32_u32le (n : Nat) (h : n < U32) (rest : List Nat) :
    readU32 (u32le n ++ rest) = some (n, rest) := by
  simp only [u32le, List.cons_append, List.nil_append, readU32, Option.some.injEq, Prod.mk.injEq,
    and_true]
  omega

@[simp] theorem u32le_length (n : Nat) : (u32le n).length = 4 := rfl

/-- Appending an entry with a larger key. -/
theorem insert_append_last (acc : TreeMap) (k : Nat) (s : Sel) (h : ∀ e ∈ acc, e.1 < k) :
    SMap.insert k s acc = acc ++ [(k, s)] := by
  induction acc with
  | nil => rfl
  | cons e acc ih =>
    obtain ⟨k', s'⟩ := e
    have hk : k' < k := h (k', s') (by simp)
    simp only [SMap.insert]
    rw [if_neg (by omega), if_neg (by omega), ih (fun e he => h e (by simp [he]))]
    rfl

end Verif.RowSet
