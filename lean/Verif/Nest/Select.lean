import Verif.Nest.Lemmas

/-! # Lemmas on `project` -/

namespace Verif.Nest

/-- The projection is a part of the columns (what `project` asks for): the first column of each name is of the same kind, and structs have at least one child. -/
def Fits : Fields → Cols → Prop
  | .nil, _ => True
  | .leaf n rest, c => (∃ v, c.find n = some (.value v)) ∧ Fits rest c
  | .node n kids rest, c => (∃ b ks, c.find n = some (.struct b ks) ∧ Fits kids ks) ∧ kids ≠ .nil ∧ Fits rest c

/-- The names of fields. -/
def Fields.names : Fields → List Name
  | .nil => []
  | .leaf n rest => n :: rest.names
  | .node n _ rest => n :: rest.names

/-- The names of columns. -/
def Cols.names : Cols → List Name
  | .nil => []
  | .leaf n _ rest => n :: rest.names
  | .node n _ _ rest => n :: rest.names

theorem find_value (c : Cols) (n : Name) (v : Option Nat) (h : c.find n = some (.value v)) : valueAt c n [] = some v := by
  induction c with
  | nil => exact nomatch h
  | leaf m w rest ih =>
    simp only [Cols.find] at h
    simp only [valueAt, and_true]
    split at h
    · cases h
      rw [if_pos (by assumption)]
    · rw [if_neg (by assumption)]
      exact ih h
  | node m b kids rest _ ih =>
    simp only [Cols.find] at h
    split at h
    · exact nomatch h
    · exact ih h

theorem find_struct (c : Cols) (n : Name) (b : Bool) (ks : Cols) (h : c.find n = some (.struct b ks)) : c.findNode n = some (b, ks) := by
  induction c with
  | nil => exact nomatch h
  | leaf m w rest ih =>
    simp only [Cols.find] at h
    split at h
    · exact nomatch h
    · exact ih h
  | node m b' kids rest _ ih =>
    simp only [Cols.find] at h
    simp only [Cols.findNode]
    split at h
    · cases h
      rw [if_pos (by assumption)]
    · rw [if_neg (by assumption)]
      exact ih h

theorem structNamed_of_find (c : Cols) (n : Name) (b : Bool) (ks : Cols) (h : c.find n = some (.struct b ks)) : c.fields.structNamed n = some ks.fields := by
  induction c with
  | nil => exact nomatch h
  | leaf m w rest ih =>
    simp only [Cols.find] at h
    simp only [Cols.fields, Fields.structNamed]
    split at h
    · exact nomatch h
    · rw [if_neg (by assumption)]
      exact ih h
  | node m b' kids rest _ ih =>
    simp only [Cols.find] at h
    simp only [Cols.fields, Fields.structNamed]
    split at h
    · cases h
      rw [if_pos (by assumption)]
    · rw [if_neg (by assumption)]
      exact ih h

theorem computeProjection_nil (schema C : Fields) (sel : Sel) (h : computeProjection schema C = some sel) (hn : C ≠ .nil) : sel ≠ .nil := by
  cases C with
  | nil => exact absurd rfl hn
  | leaf n rest =>
    unfold computeProjection at h
    split at h
    · cases h
      exact fun h => nomatch h
    · exact nomatch h
  | node n kids rest =>
    unfold computeProjection at h
    split at h
    · exact nomatch h
    · split at h
      · exact nomatch h
      · split at h
        · exact nomatch h
        · split at h <;> (cases h; exact fun h => nomatch h)

/-- What comes out of `project`. -/
theorem project_spec (C : Fields) : ∀ (c : Cols), Fits C c → ∃ sel out, computeProjection c.fields C = some sel ∧ evalSel sel c = some out ∧
    out.names = C.names ∧
    (∀ n p, hasValue C n p = true → valueAt out n p = valueAt c n p ∧ (valueAt c n p).isSome) ∧
    (∀ n p, hasStruct C n p = true → (structAt c n p).isSome ∧ (structAt out n p = structAt c n p ∨ structAt out n p = some true)) := by
  induction C with
  | nil => intro c _; exact ⟨.nil, .nil, rfl, rfl, rfl, (fun n p h => nomatch h), (fun n p h => nomatch h)⟩
  | leaf m rest ih =>
    intro c ⟨⟨v, hv⟩, hf⟩
    obtain ⟨sel, out, h1, h2, h3, h4, h5⟩ := ih c hf
    refine ⟨.full m sel, .leaf m v out, ?_, ?_, ?_, ?_, ?_⟩
    · simp only [computeProjection, h1]
    · simp only [evalSel, hv, h2]
    · simp only [Cols.names, Fields.names, h3]
    · intro n p h
      by_cases hc : m = n ∧ p = []
      · obtain ⟨rfl, rfl⟩ := hc
        rw [find_value c m v hv]
        simp [valueAt]
      · simp only [valueAt, if_neg hc]
        exact h4 n p (by simpa only [hasValue, if_neg hc] using h)
    · intro n p h
      simp only [structAt]
      exact h5 n p (by simpa only [hasStruct] using h)
  | node m kids rest ihk ih =>
    intro c ⟨⟨b, ks, hk, hfk⟩, hne, hf⟩
    obtain ⟨sel, out, h1, h2, h3, h4, h5⟩ := ih c hf
    obtain ⟨sub, inner, k1, k2, k3, k4, k5⟩ := ihk ks hfk
    have hs := structNamed_of_find c m b ks hk
    have hnode := find_struct c m b ks hk
    by_cases hfull : kids.length = ks.fields.length ∧ sub.allFull
    · refine ⟨.full m sel, .node m b ks out, ?_, ?_, ?_, ?_, ?_⟩
      · simp only [computeProjection, hs, k1, h1, if_pos hfull]
      · simp only [evalSel, hk, h2]
      · simp only [Cols.names, Fields.names, h3]
      · intro n p h
        cases p with
        | nil =>
          simp only [valueAt]
          exact h4 n [] (by simpa only [hasValue] using h)
        | cons k q =>
          by_cases hc : m = n
          · subst hc
            rw [valueAt_node c, hnode]
            simp only [valueAt, if_true, Option.bind_some, true_and]
            exact (k4 k q (by simpa only [hasValue, if_true] using h)).2
          · simp only [valueAt, if_neg hc]
            exact h4 n (k :: q) (by simpa only [hasValue, if_neg hc] using h)
      · intro n p h
        by_cases hc : m = n
        · subst hc
          cases p with
          | nil =>
            rw [structAt_here c, hnode]
            simp [structAt]
          | cons k q =>
            rw [structAt_node c, hnode]
            simp only [structAt, if_true, Option.bind_some, true_or, and_true]
            exact (k5 k q (by simpa only [hasStruct, if_true] using h)).1
        · cases p <;> simp only [structAt, if_neg hc] <;> exact h5 n _ (by simpa only [hasStruct, if_neg hc] using h)
    · refine ⟨.part m sub sel, .node m true inner out, ?_, ?_, ?_, ?_, ?_⟩
      · simp only [computeProjection, hs, k1, h1, if_neg hfull]
      · simp only [evalSel, hk, h2, k2, if_neg (computeProjection_nil _ _ _ k1 hne)]
      · simp only [Cols.names, Fields.names, h3]
      · intro n p h
        cases p with
        | nil =>
          simp only [valueAt]
          exact h4 n [] (by simpa only [hasValue] using h)
        | cons k q =>
          by_cases hc : m = n
          · subst hc
            rw [valueAt_node c, hnode]
            simp only [valueAt, if_true, Option.bind_some]
            exact k4 k q (by simpa only [hasValue, if_true] using h)
          · simp only [valueAt, if_neg hc]
            exact h4 n (k :: q) (by simpa only [hasValue, if_neg hc] using h)
      · intro n p h
        by_cases hc : m = n
        · subst hc
          cases p with
          | nil =>
            rw [structAt_here c, hnode]
            simp [structAt]
          | cons k q =>
            rw [structAt_node c, hnode]
            simp only [structAt, if_true, Option.bind_some]
            exact k5 k q (by simpa only [hasStruct, if_true] using h)
        · cases p <;> simp only [structAt, if_neg hc] <;> exact h5 n _ (by simpa only [hasStruct, if_neg hc] using h)

end Verif.Nest
