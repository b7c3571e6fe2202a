import Verif.Optim.Rule

/-! # The rule that removes projections -/

namespace Verif.Optim

theorem pick_all : ∀ (cols pre : List (Name × Nat)) (es : List (Nat × Name)), es.map (·.2) = cols.map (·.1) → es.map (·.1) = List.range' pre.length cols.length →
    pick (pre ++ cols) es = some cols := by
  intro cols
  induction cols with
  | nil =>
    intro pre es h _
    cases es with
    | nil => rfl
    | cons e es => exact nomatch h
  | cons c cols ih =>
    intro pre es h1 h2
    cases es with
    | nil => exact nomatch h1
    | cons e es =>
      rw [List.map_cons, List.map_cons, List.cons.injEq] at h1
      rw [List.map_cons, List.length_cons, List.range'_succ, List.cons.injEq] at h2
      have h3 := ih (pre ++ [c]) es h1.2 (by rw [h2.2, List.length_append]; rfl)
      rw [List.append_assoc, List.singleton_append] at h3
      unfold pick
      rw [h3, h2.1, List.getElem?_append_right (Nat.le_refl _), Nat.sub_self]
      simp only [List.getElem?_cons_zero]
      rw [h1.1]

theorem simplifyStep_spec (d : Data) (p : Plan) : schema d (simplifyStep d p) = schema d p ∧ eval d (simplifyStep d p) = eval d p := by
  unfold simplifyStep
  split
  · rename_i es x
    split
    · rename_i h
      refine ⟨h.1, ?_⟩
      conv => rhs; unfold eval
      cases hx : eval d x with
      | none => rfl
      | some cols =>
        have hk := eval_schema d x cols hx
        have hlen : cols.length = es.length := by
          have := congrArg List.length (hk.trans h.1)
          simpa using this
        exact (pick_all cols [] es (by rw [hk, h.1]) (by rw [h.2, hlen, List.range_eq_range']; rfl)).symm
    · exact ⟨rfl, rfl⟩
  · exact ⟨rfl, rfl⟩

theorem simplify_spec (d : Data) : ∀ (fuel : Nat) (p : Plan), schema d (simplify d fuel p) = schema d p ∧ eval d (simplify d fuel p) = eval d p := by
  intro fuel
  induction fuel with
  | zero => intro p; exact ⟨rfl, rfl⟩
  | succ fuel ih =>
    intro p
    obtain ⟨h1, h2⟩ := simplifyStep_spec d p
    rw [← h1, ← h2]
    unfold simplify
    cases simplifyStep d p with
    | source cols => exact ⟨rfl, rfl⟩
    | take b x =>
      simp only
      rw [newTake_schema, newTake_eval]
      simp only [eval, schema, (ih x).1, (ih x).2, and_self]
    | coalesce x => exact ih x
    | keep x => exact ih x
    | projection es x => exact ⟨rfl, by simp only [eval, (ih x).2]⟩

end Verif.Optim
