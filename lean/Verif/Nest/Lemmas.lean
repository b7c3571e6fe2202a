import Verif.Nest.Model

/-! # What is at a path, and lemmas -/

namespace Verif.Nest

/-! ## Paths: a name and the names after it -/

/-- The value at a path of names. -/
def valueAt : Cols → Name → List Name → Option (Option Nat)
  | .nil, _, _ => none
  | .leaf m v rest, n, p => if m = n ∧ p = [] then some v else valueAt rest n p
  | .node _ _ _ rest, n, [] => valueAt rest n []
  | .node m _ kids rest, n, k :: q => if m = n then valueAt kids k q else valueAt rest n (k :: q)

/-- Whether the struct at a path of names is valid. -/
def structAt : Cols → Name → List Name → Option Bool
  | .nil, _, _ => none
  | .leaf _ _ rest, n, p => structAt rest n p
  | .node m b _ rest, n, [] => if m = n then some b else structAt rest n []
  | .node m _ kids rest, n, k :: q => if m = n then structAt kids k q else structAt rest n (k :: q)

/-- The schema has a field at this path that is not a struct. -/
def hasValue : Fields → Name → List Name → Bool
  | .nil, _, _ => false
  | .leaf m rest, n, p => if m = n ∧ p = [] then true else hasValue rest n p
  | .node _ _ rest, n, [] => hasValue rest n []
  | .node m kids rest, n, k :: q => if m = n then hasValue kids k q else hasValue rest n (k :: q)

/-- The schema has a struct at this path. -/
def hasStruct : Fields → Name → List Name → Bool
  | .nil, _, _ => false
  | .leaf _ rest, n, p => hasStruct rest n p
  | .node m _ rest, n, [] => if m = n then true else hasStruct rest n []
  | .node m kids rest, n, k :: q => if m = n then hasStruct kids k q else hasStruct rest n (k :: q)

/-! ## Lookups -/

theorem valueAt_leaf (c : Cols) (n : Name) : valueAt c n [] = c.findLeaf n := by
  induction c with
  | nil => rfl
  | leaf m v rest ih => simp only [valueAt, Cols.findLeaf, ih, and_true]
  | node m b kids rest _ ih => simp only [valueAt, Cols.findLeaf, ih]

theorem valueAt_node (c : Cols) (n k : Name) (q : List Name) :
    valueAt c n (k :: q) = (c.findNode n).bind (fun x => valueAt x.2 k q) := by
  induction c with
  | nil => rfl
  | leaf m v rest ih => simp [valueAt, Cols.findNode, ih]
  | node m b kids rest _ ih =>
    simp only [valueAt, Cols.findNode, ih]
    split <;> rfl

theorem structAt_here (c : Cols) (n : Name) : structAt c n [] = (c.findNode n).map (·.1) := by
  induction c with
  | nil => rfl
  | leaf m v rest ih => simp only [structAt, Cols.findNode, ih]
  | node m b kids rest _ ih =>
    simp only [structAt, Cols.findNode, ih]
    split <;> rfl

theorem structAt_node (c : Cols) (n k : Name) (q : List Name) :
    structAt c n (k :: q) = (c.findNode n).bind (fun x => structAt x.2 k q) := by
  induction c with
  | nil => rfl
  | leaf m v rest ih => simp only [structAt, Cols.findNode, ih]
  | node m b kids rest _ ih =>
    simp only [structAt, Cols.findNode, ih]
    split <;> rfl

/-! ## `merge_with_schema` -/

/-- Nothing is made up. -/
theorem merge_none (C : Fields) : ∀ (L R : Cols) (n : Name) (p : List Name), valueAt L n p = none → valueAt R n p = none →
    valueAt (mergeWithSchema L R C) n p = none := by
  induction C with
  | nil => intros; rfl
  | leaf m rest ih =>
    intro L R n p hL hR
    have h := ih L R n p hL hR
    unfold mergeWithSchema
    split
    · rename_i v h1 h2
      simp only [valueAt]
      split
      · rename_i hc
        rw [hc.2, ← hc.1, valueAt_leaf, h2] at hR
        exact nomatch hR
      · exact h
    · rename_i v h1
      simp only [valueAt]
      split
      · rename_i hc
        rw [hc.2, ← hc.1, valueAt_leaf, h1] at hL
        exact nomatch hL
      · exact h
    · exact h
  | node m kids rest ihk ih =>
    intro L R n p hL hR
    have h := ih L R n p hL hR
    unfold mergeWithSchema
    cases p with
    | nil => split <;> (try simp only [valueAt]) <;> exact h
    | cons k q =>
      rw [valueAt_node] at hL hR
      split
      · rename_i h1 h2
        simp only [valueAt]
        split
        · rename_i hc
          rw [← hc, h2] at hR
          exact hR
        · exact h
      · rename_i h1 h2
        simp only [valueAt]
        split
        · rename_i hc
          rw [← hc, h1] at hL
          exact hL
        · exact h
      · rename_i h1 h2
        simp only [valueAt]
        split
        · rename_i hc
          rw [← hc, h1] at hL
          rw [← hc, h2] at hR
          exact ihk _ _ k q hL hR
        · exact h
      · exact h

/-- Every value of the schema is that of the left columns or else that of the right ones. -/
theorem merge_value (C : Fields) : ∀ (L R : Cols) (n : Name) (p : List Name), hasValue C n p = true →
    valueAt (mergeWithSchema L R C) n p = (valueAt L n p).or (valueAt R n p) := by
  induction C with
  | nil => intro L R n p h; exact nomatch h
  | leaf m rest ih =>
    intro L R n p hC
    by_cases hc : m = n ∧ p = []
    · obtain ⟨rfl, rfl⟩ := hc
      rw [valueAt_leaf L, valueAt_leaf R]
      conv => lhs; unfold mergeWithSchema
      split
      · rename_i v h1 h2
        rw [h1, h2]
        simp [valueAt]
      · rename_i v h1
        rw [h1]
        simp [valueAt]
      · rename_i h1 h2
        rw [h1, h2]
        exact merge_none rest L R m [] (by rw [valueAt_leaf, h1]) (by rw [valueAt_leaf, h2])
    · have h : hasValue rest n p = true := by simpa only [hasValue, if_neg hc] using hC
      have h := ih L R n p h
      conv => lhs; unfold mergeWithSchema
      split <;> (try simp only [valueAt, if_neg hc]) <;> exact h
  | node m kids rest ihk ih =>
    intro L R n p hC
    cases p with
    | nil =>
      have h := ih L R n [] (by simpa only [hasValue] using hC)
      conv => lhs; unfold mergeWithSchema
      split <;> (try simp only [valueAt]) <;> exact h
    | cons k q =>
      by_cases hc : m = n
      · subst hc
        have hk : hasValue kids k q = true := by simpa only [hasValue, if_true] using hC
        rw [valueAt_node L, valueAt_node R]
        conv => lhs; unfold mergeWithSchema
        split
        · rename_i h1 h2
          rw [h1, h2]
          simp [valueAt]
        · rename_i h1 h2
          rw [h1, h2]
          simp [valueAt]
        · rename_i h1 h2
          rw [h1, h2]
          simp only [valueAt, if_true, Option.bind_some]
          exact ihk _ _ k q hk
        · rename_i h1 h2
          rw [h1, h2]
          exact merge_none rest L R m (k :: q) (by rw [valueAt_node, h1]; rfl) (by rw [valueAt_node, h2]; rfl)
      · have h := ih L R n (k :: q) (by simpa only [hasValue, if_neg hc] using hC)
        conv => lhs; unfold mergeWithSchema
        split <;> (try simp only [valueAt, if_neg hc]) <;> exact h

/-- Nothing is made up, structs. -/
theorem merge_struct_none (C : Fields) : ∀ (L R : Cols) (n : Name) (p : List Name), structAt L n p = none → structAt R n p = none →
    structAt (mergeWithSchema L R C) n p = none := by
  induction C with
  | nil => intros; rfl
  | leaf m rest ih =>
    intro L R n p hL hR
    have h := ih L R n p hL hR
    unfold mergeWithSchema
    split <;> (try simp only [structAt]) <;> exact h
  | node m kids rest ihk ih =>
    intro L R n p hL hR
    have h := ih L R n p hL hR
    unfold mergeWithSchema
    by_cases hc : m = n
    · subst hc
      cases p with
      | nil =>
        rw [structAt_here, Option.map_eq_none_iff] at hL hR
        rw [hL, hR]
        exact h
      | cons k q =>
        rw [structAt_node] at hL hR
        split
        · rename_i h1 h2
          rw [h2] at hR
          simpa only [structAt, if_true, Option.bind_some] using hR
        · rename_i h1 h2
          rw [h1] at hL
          simpa only [structAt, if_true, Option.bind_some] using hL
        · rename_i h1 h2
          rw [h1] at hL
          rw [h2] at hR
          simp only [structAt, if_true]
          exact ihk _ _ k q hL hR
        · exact h
    · cases p <;> split <;> (try simp only [structAt, if_neg hc]) <;> exact h

/-- A struct of the schema is as it is on its side; one that is on both sides is valid. -/
theorem merge_struct (C : Fields) : ∀ (L R : Cols) (n : Name) (p : List Name), hasStruct C n p = true →
    structAt (mergeWithSchema L R C) n p = if (structAt L n p).isSome ∧ (structAt R n p).isSome then some true else (structAt L n p).or (structAt R n p) := by
  induction C with
  | nil => intro L R n p h; exact nomatch h
  | leaf m rest ih =>
    intro L R n p hC
    have h := ih L R n p (by simpa only [hasStruct] using hC)
    conv => lhs; unfold mergeWithSchema
    split <;> (try simp only [structAt]) <;> exact h
  | node m kids rest ihk ih =>
    intro L R n p hC
    by_cases hc : m = n
    · subst hc
      cases p with
      | nil =>
        rw [structAt_here L, structAt_here R]
        conv => lhs; unfold mergeWithSchema
        split
        · rename_i h1 h2
          rw [h1, h2]
          simp [structAt]
        · rename_i h1 h2
          rw [h1, h2]
          simp [structAt]
        · rename_i h1 h2
          rw [h1, h2]
          simp [structAt]
        · rename_i h1 h2
          rw [h1, h2]
          exact merge_struct_none rest L R m [] (by rw [structAt_here, h1]; rfl) (by rw [structAt_here, h2]; rfl)
      | cons k q =>
        have hk : hasStruct kids k q = true := by simpa only [hasStruct, if_true] using hC
        rw [structAt_node L, structAt_node R]
        conv => lhs; unfold mergeWithSchema
        split
        · rename_i h1 h2
          rw [h1, h2]
          simp [structAt]
        · rename_i h1 h2
          rw [h1, h2]
          simp [structAt]
        · rename_i h1 h2
          rw [h1, h2]
          simp only [structAt, if_true, Option.bind_some]
          exact ihk _ _ k q hk
        · rename_i h1 h2
          rw [h1, h2]
          exact merge_struct_none rest L R m (k :: q) (by rw [structAt_node, h1]; rfl) (by rw [structAt_node, h2]; rfl)
    · have h := ih L R n p (by cases p <;> simpa only [hasStruct, if_neg hc] using hC)
      cases p <;> (conv => lhs; unfold mergeWithSchema) <;> split <;> (try simp only [structAt, if_neg hc]) <;> exact h

end Verif.Nest
