/-!
# Ordered finite maps with natural-number keys

`std::collections::BTreeMap<u32/u64, V>` (and `HashMap` where order does not
matter) is represented by an association list whose keys are kept strictly
increasing.  This models the documented behaviour of the standard container,
no file of /repo.
-/
namespace Verif

/-- Association list with strictly increasing keys (see `SMap.Sorted`). -/
abbrev SMap (V : Type) := List (Nat × V)

namespace SMap
variable {V W : Type}

/-- Keys strictly increasing. -/
def Sorted (m : SMap V) : Prop := m.Pairwise (fun a b => a.1 < b.1)

/-- `BTreeMap::get`. -/
def get (k : Nat) : SMap V → Option V
  | [] => none
  | (k', v) :: m => if k' = k then some v else get k m

/-- `BTreeMap::insert` (replaces an existing value). -/
def insert (k : Nat) (v : V) : SMap V → SMap V
  | [] => [(k, v)]
  | (k', v') :: m =>
    if k < k' then (k, v) :: (k', v') :: m
    else if k = k' then (k, v) :: m
    else (k', v') :: insert k v m

/-- `BTreeMap::remove`. -/
def erase (k : Nat) (m : SMap V) : SMap V := m.filter (fun e => e.1 != k)

/-- `BTreeMap::retain`. -/
def retain (p : Nat → V → Bool) (m : SMap V) : SMap V := m.filter (fun e => p e.1 e.2)

/-- In-place update of all values. -/
def mapVals (f : Nat → V → W) (m : SMap V) : SMap W := m.map (fun e => (e.1, f e.1 e.2))

def keys (m : SMap V) : List Nat := m.map (·.1)

@[simp] theorem get_nil (k : Nat) : get k ([] : SMap V) = none := rfl

theorem get_insert (k j : Nat) (v : V) (m : SMap V) :
    get j (insert k v m) = if j = k then some v else get j m := by
  induction m with
  | nil => simp [insert, get, eq_comm]
  | cons e m ih =>
    obtain ⟨k', v'⟩ := e
    simp only [insert]
    split
    · simp only [get]
      by_cases hj : k = j
      · subst hj; simp
      · have hj' : ¬ j = k := fun e => hj e.symm
        simp only [hj, hj', if_false]
    · split
      · subst_vars
        simp only [get]
        split <;> split <;> (try omega) <;> rfl
      · simp only [get, ih]
        split <;> split <;> (try omega) <;> rfl

theorem get_filter_key (p : Nat → Bool) (k : Nat) (m : SMap V) :
    get k (m.filter (fun e => p e.1)) = if p k then get k m else none := by
  induction m with
  | nil => simp
  | cons e m ih =>
    obtain ⟨k', v'⟩ := e
    simp only [List.filter_cons]
    split
    · simp only [get, ih]
      split
      · subst_vars; simp_all
      · rfl
    · simp only [get, ih]
      split
      · split
        · subst_vars; simp_all
        · rfl
      · rfl

theorem get_erase (k j : Nat) (m : SMap V) :
    get j (erase k m) = if j = k then none else get j m := by
  unfold erase
  rw [get_filter_key (fun x => x != k)]
  by_cases h : j = k <;> simp [h]

theorem get_mapVals (f : Nat → V → W) (k : Nat) (m : SMap V) :
    get k (mapVals f m) = (get k m).map (f k) := by
  induction m with
  | nil => rfl
  | cons e m ih =>
    obtain ⟨k', v'⟩ := e
    simp only [mapVals, List.map_cons, get] at *
    split
    · subst_vars; rfl
    · exact ih

theorem get_some_mem {k : Nat} {v : V} {m : SMap V} (h : get k m = some v) : (k, v) ∈ m := by
  induction m with
  | nil => simp at h
  | cons e m ih =>
    obtain ⟨k', v'⟩ := e
    simp only [get] at h
    split at h
    · subst_vars; simp_all
    · exact List.mem_cons_of_mem _ (ih h)

theorem Sorted.tail {e : Nat × V} {m : SMap V} (h : Sorted (e :: m)) : Sorted m :=
  (List.pairwise_cons.1 h).2

theorem get_eq_some_of_mem {k : Nat} {v : V} {m : SMap V} (hs : m.Sorted) (h : (k, v) ∈ m) :
    get k m = some v := by
  induction m with
  | nil => simp at h
  | cons e m ih =>
    obtain ⟨k', v'⟩ := e
    simp only [get]
    rcases List.mem_cons.1 h with e | h'
    · cases e; simp
    · have := (List.pairwise_cons.1 hs).1 _ h'
      simp only at this
      rw [if_neg (by omega)]
      exact ih hs.tail h'

theorem get_iff_mem {k : Nat} {v : V} {m : SMap V} (hs : m.Sorted) : get k m = some v ↔ (k, v) ∈ m :=
  ⟨get_some_mem, get_eq_some_of_mem hs⟩

theorem get_retain (p : Nat → V → Bool) (k : Nat) (m : SMap V) (hs : m.Sorted) :
    get k (retain p m) = (get k m).filter (p k) := by
  induction m with
  | nil => rfl
  | cons e m ih =>
    obtain ⟨k', v'⟩ := e
    have hk := (List.pairwise_cons.1 hs).1
    have ih' := ih hs.tail
    simp only [retain, List.filter_cons, get] at *
    by_cases hkk : k' = k
    · subst hkk
      by_cases hp : p k' v' = true
      · simp [hp, get, Option.filter]
      · simp only [hp, if_true]
        simp only [Bool.false_eq_true, if_false]
        rw [ih']
        have : get k' m = none := by
          cases hg : get k' m with
          | none => rfl
          | some w => have := hk _ (get_some_mem hg); simp at this
        simp [this, Option.filter, hp]
    · simp only [hkk, if_false]
      split
      · simp only [get, hkk, if_false]; exact ih'
      · exact ih'

theorem sorted_nil : Sorted ([] : SMap V) := List.Pairwise.nil

theorem key_mem_insert {k : Nat} {v : V} {m : SMap V} {e : Nat × V} (h : e ∈ insert k v m) :
    e = (k, v) ∨ e ∈ m := by
  induction m with
  | nil => simp_all [insert]
  | cons e' m ih =>
    obtain ⟨k', v'⟩ := e'
    simp only [insert] at h
    split at h
    · rcases List.mem_cons.1 h with h | h
      · exact Or.inl h
      · exact Or.inr h
    · split at h
      · rcases List.mem_cons.1 h with h | h
        · exact Or.inl h
        · exact Or.inr (List.mem_cons_of_mem _ h)
      · rcases List.mem_cons.1 h with h | h
        · exact Or.inr (h ▸ List.mem_cons_self)
        · rcases ih h with h | h
          · exact Or.inl h
          · exact Or.inr (List.mem_cons_of_mem _ h)

theorem sorted_insert (k : Nat) (v : V) (m : SMap V) (h : m.Sorted) : (insert k v m).Sorted := by
  induction m with
  | nil => simp [insert, Sorted]
  | cons e m ih =>
    obtain ⟨k', v'⟩ := e
    have hk := (List.pairwise_cons.1 h).1
    simp only [insert]
    split
    · refine List.pairwise_cons.2 ⟨?_, h⟩
      intro a ha
      rcases List.mem_cons.1 ha with rfl | ha
      · assumption
      · have := hk a ha; simp only at *; omega
    · split
      · subst_vars
        exact List.pairwise_cons.2 ⟨fun a ha => hk a ha, h.tail⟩
      · refine List.pairwise_cons.2 ⟨?_, ih h.tail⟩
        intro a ha
        rcases key_mem_insert ha with rfl | ha
        · simp only; omega
        · exact hk a ha

theorem sorted_retain (p : Nat → V → Bool) (m : SMap V) (h : m.Sorted) : (retain p m).Sorted :=
  List.Pairwise.filter _ h

theorem sorted_erase (k : Nat) (m : SMap V) (h : m.Sorted) : (erase k m).Sorted :=
  List.Pairwise.filter _ h

theorem sorted_mapVals (f : Nat → V → W) (m : SMap V) (h : m.Sorted) : (mapVals f m).Sorted := by
  unfold mapVals Sorted
  exact List.pairwise_map.2 (List.Pairwise.imp (fun h => h) h)

theorem get_eq_none_iff {k : Nat} {m : SMap V} : get k m = none ↔ k ∉ m.keys := by
  induction m with
  | nil => simp [keys]
  | cons e m ih =>
    obtain ⟨k', v'⟩ := e
    simp only [get, keys, List.map_cons, List.mem_cons, not_or] at *
    by_cases hkk : k' = k
    · subst hkk; simp
    · simp only [hkk, if_false, ih, List.mem_map]
      constructor
      · intro h; exact ⟨fun e => hkk e.symm, h⟩
      · exact fun h => h.2

end SMap
end Verif
