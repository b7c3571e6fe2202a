import Verif.Nest.Select

/-! # C122: columns inside columns -/

namespace Verif.Nest

/-- The columns are some of those of a row. -/
def Part (some_ full : Cols) : Prop :=
  (∀ n p v, valueAt some_ n p = some v → valueAt full n p = some v) ∧ (∀ n p b, structAt some_ n p = some b → structAt full n p = some b)

/-- Everything in the schema was read in one of two steps. -/
def Covered (C : Fields) (left right : Cols) : Prop :=
  (∀ n p, hasValue C n p = true → (valueAt left n p).isSome ∨ (valueAt right n p).isSome) ∧
    (∀ n p, hasStruct C n p = true → (structAt left n p).isSome ∨ (structAt right n p).isSome)

/-- The columns of the schema are those of the row. -/
def Right (C : Fields) (full out : Cols) : Prop :=
  (∀ n p, hasValue C n p = true → valueAt out n p = valueAt full n p) ∧ (∀ n p, hasStruct C n p = true → structAt out n p = structAt full n p)

/-- Columns that are read in two steps, and columns that are brought into one form for a union, are those of the row, at every depth: values are the same, and structs are null where they are null. -/
def C122_statement : Prop :=
  (∀ (full left right : Cols) (C : Fields), Part left full → Part right full → Covered C left right → Right C full (mergeWithSchema left right C)) ∧
    (∀ (c : Cols) (C : Fields), Fits C c → ∃ out, project c C = some out ∧ Right C c out)

/-- Columns read in two steps have their values at every depth, and structs are as they are in the row unless they are null and have parts from both steps; missing: these. -/
theorem C122_late_partial (full left right : Cols) (C : Fields) (hl : Part left full) (hr : Part right full) (hc : Covered C left right) :
    (∀ n p, hasValue C n p = true → valueAt (mergeWithSchema left right C) n p = valueAt full n p ∧ (valueAt full n p).isSome) ∧
      (∀ n p, hasStruct C n p = true → ¬ (structAt full n p = some false ∧ (structAt left n p).isSome ∧ (structAt right n p).isSome) →
        structAt (mergeWithSchema left right C) n p = structAt full n p ∧ (structAt full n p).isSome) ∧
      (∀ n p v, valueAt (mergeWithSchema left right C) n p = some v → (valueAt full n p).isSome) := by
  refine ⟨?_, ?_, ?_⟩
  · intro n p h
    rw [merge_value C left right n p h]
    cases h1 : valueAt left n p with
    | some v => rw [hl.1 n p v h1]; exact ⟨rfl, rfl⟩
    | none =>
      cases h2 : valueAt right n p with
      | some v => rw [hr.1 n p v h2]; exact ⟨rfl, rfl⟩
      | none =>
        have := hc.1 n p h
        rw [h1, h2] at this
        simp at this
  · intro n p h hn
    rw [merge_struct C left right n p h]
    cases h1 : structAt left n p with
    | some b =>
      have hf := hl.2 n p b h1
      rw [hf]
      rw [h1, hf] at hn
      cases h2 : structAt right n p with
      | some b' =>
        rw [h2] at hn
        cases b with
        | true => exact ⟨rfl, rfl⟩
        | false => exact absurd ⟨rfl, rfl, rfl⟩ hn
      | none => exact ⟨by simp, rfl⟩
    | none =>
      cases h2 : structAt right n p with
      | some b => rw [hr.2 n p b h2]; exact ⟨by simp, rfl⟩
      | none =>
        have := hc.2 n p h
        rw [h1, h2] at this
        simp at this
  · intro n p v h
    cases h1 : valueAt left n p with
    | some w => rw [hl.1 n p w h1]; rfl
    | none =>
      cases h2 : valueAt right n p with
      | some w => rw [hr.1 n p w h2]; rfl
      | none =>
        rw [merge_none C left right n p h1 h2] at h
        exact nomatch h

/-- A null struct with parts from both steps is not null any more, at every depth. -/
theorem C122_late_violated (left right : Cols) (C : Fields) (n : Name) (p : List Name) (h : hasStruct C n p = true) (hl : structAt left n p = some false)
    (hr : structAt right n p = some false) : structAt (mergeWithSchema left right C) n p = some true := by
  rw [merge_struct C left right n p h, hl, hr]
  rfl

/-- Columns brought into one form have their names in the order of the schema, their values at every depth, and structs are as they are unless they are null; missing: these. -/
theorem C122_union_partial (c : Cols) (C : Fields) (h : Fits C c) : ∃ out, project c C = some out ∧ out.names = C.names ∧
    (∀ n p, hasValue C n p = true → valueAt out n p = valueAt c n p ∧ (valueAt c n p).isSome) ∧
    (∀ n p, hasStruct C n p = true → structAt c n p ≠ some false → structAt out n p = structAt c n p ∧ (structAt c n p).isSome) := by
  obtain ⟨sel, out, h1, h2, h3, h4, h5⟩ := project_spec C c h
  refine ⟨out, ?_, h3, h4, ?_⟩
  · unfold project
    rw [h1]
    exact h2
  · intro n p hs hn
    obtain ⟨h6, h7⟩ := h5 n p hs
    refine ⟨?_, h6⟩
    rcases h7 with h7 | h7
    · exact h7
    · rw [h7]
      cases h8 : structAt c n p with
      | none => rw [h8] at h6; exact nomatch h6
      | some b =>
        cases b with
        | true => rfl
        | false => exact absurd h8 hn

/-- A struct is taken as it is stored, null or not and with its children in the stored order, if as many children are asked for as it has and none of them is a struct. -/
theorem C122_whole (c : Cols) (n : Name) (b : Bool) (ks : Cols) (hf : c.find n = some (.struct b ks)) : ∀ (kids : Fields), (∀ m p, hasStruct kids m p = false) →
    kids.length = ks.fields.length → project c (.node n kids .nil) = some (.node n b ks .nil) := by
  intro kids hk hl
  have hs := structNamed_of_find c n b ks hf
  have key : ∀ (kids : Fields), (∀ m p, hasStruct kids m p = false) → ∃ sub, computeProjection ks.fields kids = some sub ∧ sub.allFull = true := by
    intro kids
    induction kids with
    | nil => intro _; exact ⟨.nil, rfl, rfl⟩
    | leaf m rest ih =>
      intro hk
      obtain ⟨sub, h1, h2⟩ := ih (fun m' p => by simpa only [hasStruct] using hk m' p)
      exact ⟨.full m sub, by simp only [computeProjection, h1], h2⟩
    | node m kids rest _ _ =>
      intro hk
      have := hk m []
      simp only [hasStruct, if_true] at this
      exact nomatch this
  obtain ⟨sub, h1, h2⟩ := key kids hk
  simp only [project, computeProjection, hs, h1, if_pos (And.intro hl h2), evalSel, hf]

/-- A null struct of which some children are asked for is not null any more. -/
theorem C122_some_children_violated (c : Cols) (n : Name) (b : Bool) (ks : Cols) (kids : Fields) (hf : c.find n = some (.struct b ks)) (hk : Fits kids ks) (hne : kids ≠ .nil)
    (hl : kids.length ≠ ks.fields.length) : ∃ inner, project c (.node n kids .nil) = some (.node n true inner .nil) := by
  obtain ⟨sub, inner, h1, h2, _⟩ := project_spec kids ks hk
  have hs := structNamed_of_find c n b ks hf
  refine ⟨inner, ?_⟩
  simp only [project, computeProjection, hs, h1, if_neg (fun h : _ ∧ _ => hl h.1), evalSel, hf, h2, if_neg (computeProjection_nil _ _ _ h1 hne)]

theorem C122_violated : ¬ C122_statement := by
  intro ⟨_, h⟩
  obtain ⟨out, h1, h2⟩ := h (.node 0 false (.leaf 1 none (.leaf 2 none .nil)) .nil) (.node 0 (.leaf 1 .nil) .nil)
    ⟨⟨false, .leaf 1 none (.leaf 2 none .nil), rfl, ⟨none, rfl⟩, trivial⟩, (fun h => nomatch h), trivial⟩
  have h3 := h2.2 0 [] rfl
  rw [show project (.node 0 false (.leaf 1 none (.leaf 2 none .nil)) .nil) (.node 0 (.leaf 1 .nil) .nil) = some (.node 0 true (.leaf 1 none .nil) .nil) by decide] at h1
  cases h1
  exact absurd h3 (by decide)

/-- The half on reading in two steps fails too: the filter reads one child of a null struct, the rest is read late. -/
theorem C122_two_steps_violated :
    let full : Cols := .node 0 false (.leaf 1 none (.leaf 2 none .nil)) .nil
    let left : Cols := .node 0 false (.leaf 1 none .nil) .nil
    let right : Cols := .node 0 false (.leaf 2 none .nil) .nil
    let C : Fields := .node 0 (.leaf 1 (.leaf 2 .nil)) .nil
    mergeWithSchema left right C = .node 0 true (.leaf 1 none (.leaf 2 none .nil)) .nil ∧ mergeWithSchema left right C ≠ full := by
  decide

/-- A row with a struct in a struct, read in two steps, meets the conditions and comes out in the order of the schema; and a selection of some of its columns fits it. -/
theorem C122_nonvacuous :
    let full : Cols := .leaf 9 (some 5) (.node 0 true (.leaf 1 (some 6) (.node 3 true (.leaf 4 none (.leaf 5 (some 8) .nil)) .nil)) .nil)
    let left : Cols := .leaf 9 (some 5) (.node 0 true (.node 3 true (.leaf 5 (some 8) .nil) .nil) .nil)
    let right : Cols := .node 0 true (.leaf 1 (some 6) (.node 3 true (.leaf 4 none .nil) .nil)) .nil
    mergeWithSchema left right full.fields = full ∧ hasValue full.fields 0 [3, 4] = true ∧ valueAt full 0 [3, 4] = some none ∧
      project full (.node 0 (.node 3 (.leaf 5 .nil) (.leaf 1 .nil)) .nil) = some (.node 0 true (.node 3 true (.leaf 5 (some 8) .nil) (.leaf 1 (some 6) .nil)) .nil) ∧
      Fits (.node 0 (.node 3 (.leaf 5 .nil) (.leaf 1 .nil)) .nil) full := by
  refine ⟨by decide, by decide, by decide, by decide, ?_⟩
  exact ⟨⟨true, _, rfl, ⟨⟨true, _, rfl, ⟨some 8, rfl⟩, trivial⟩, (fun h => nomatch h), ⟨some 6, rfl⟩, trivial⟩⟩, (fun h => nomatch h), trivial⟩

/-- Both parts of that row are parts of it, and cover it. -/
theorem C122_nonvacuous_parts :
    let full : Cols := .leaf 9 (some 5) (.node 0 true (.leaf 1 (some 6) (.node 3 true (.leaf 4 none (.leaf 5 (some 8) .nil)) .nil)) .nil)
    let left : Cols := .leaf 9 (some 5) (.node 0 true (.node 3 true (.leaf 5 (some 8) .nil) .nil) .nil)
    let right : Cols := .node 0 true (.leaf 1 (some 6) (.node 3 true (.leaf 4 none .nil) .nil)) .nil
    Part left full ∧ Part right full ∧ Covered full.fields left right := by
  refine ⟨⟨?_, ?_⟩, ⟨?_, ?_⟩, ?_, ?_⟩
  · intro n p v h
    rcases p with _ | ⟨a, _ | ⟨b, p⟩⟩ <;> grind [valueAt]
  · intro n p v h
    rcases p with _ | ⟨a, _ | ⟨b, p⟩⟩ <;> grind [structAt]
  · intro n p v h
    rcases p with _ | ⟨a, _ | ⟨b, p⟩⟩ <;> grind [valueAt]
  · intro n p v h
    rcases p with _ | ⟨a, _ | ⟨b, p⟩⟩ <;> grind [structAt]
  · intro n p h
    rcases p with _ | ⟨a, _ | ⟨b, p⟩⟩ <;> grind [valueAt, hasValue, Cols.fields]
  · intro n p h
    rcases p with _ | ⟨a, _ | ⟨b, p⟩⟩ <;> grind [structAt, hasStruct, Cols.fields]

end Verif.Nest
