import Verif.Validate.Model
/-! Lemmas about validation. -/
namespace Verif.Validate

theorem firstErr_none (l : List (Option Err)) : firstErr l = none ↔ ∀ x ∈ l, x = none := by
  induction l with
  | nil => simp [firstErr]
  | cons x l ih =>
    cases x with
    | none => rw [firstErr, ih]; simp
    | some e => simp [firstErr]

theorem require_none (e : Err) (b : Bool) : require e b = none ↔ b = true := by
  unfold require
  cases b <;> simp

theorem scanFields_none (l seen : List Int) : scanFields seen l = none ↔ (∀ x ∈ l, 0 ≤ x) ∧ l.Nodup ∧ ∀ x ∈ l, x ∉ seen := by
  induction l generalizing seen with
  | nil => simp [scanFields]
  | cons x l ih =>
    unfold scanFields
    split
    next h =>
      refine ⟨(fun h' => nomatch h'), fun h' => ?_⟩
      have := h'.1 x (by simp)
      omega
    next h =>
      split
      next h2 =>
        refine ⟨(fun h' => nomatch h'), fun h' => ?_⟩
        exact absurd (List.contains_iff_mem.mp h2) (h'.2.2 x (by simp))
      next h2 =>
        have h2' : x ∉ seen := fun hc => h2 (List.contains_iff_mem.mpr hc)
        rw [ih]
        simp only [List.mem_cons, List.nodup_cons]
        constructor
        · rintro ⟨h3, h4, h5⟩
          refine ⟨?_, ⟨fun hx => h5 x hx (Or.inl rfl), h4⟩, ?_⟩
          · rintro y (rfl | hy)
            · omega
            · exact h3 y hy
          · rintro y (rfl | hy)
            · exact h2'
            · exact fun hc => h5 y hy (Or.inr hc)
        · rintro ⟨h3, ⟨h4, h5⟩, h6⟩
          refine ⟨fun y hy => h3 y (Or.inr hy), h5, ?_⟩
          rintro y hy (rfl | hc)
          · exact h4 hy
          · exact h6 y (Or.inr hy) hc

theorem checkMixed_none (files : List DataFile) :
    checkMixed files = none ↔ files ≠ [] ∧ ((∀ f ∈ files, f.legacy = true) ∨ ∀ f ∈ files, f.legacy = false) := by
  unfold checkMixed
  cases files with
  | nil => simp
  | cons f l =>
    simp only [List.any_cons, List.all_cons, List.isEmpty_cons, Bool.false_eq_true, if_false]
    cases hf : f.legacy with
    | true =>
      simp only [Bool.true_or, Bool.true_and]
      constructor
      · intro h
        split at h
        next h' =>
          rw [beq_iff_eq] at h'
          have := List.all_eq_true.mp h'.symm
          refine ⟨by simp, Or.inl ?_⟩
          intro g hg
          rcases List.mem_cons.mp hg with rfl | hg
          · exact hf
          · exact this g hg
        next => cases h
      · rintro ⟨_, h | h⟩
        · have : l.all (·.legacy) = true := List.all_eq_true.mpr (fun g hg => h g (by simp [hg]))
          rw [this]; rfl
        · have := h f (by simp)
          rw [hf] at this; cases this
    | false =>
      simp only [Bool.false_or, Bool.false_and]
      constructor
      · intro h
        split at h
        next h' =>
          rw [beq_iff_eq] at h'
          have := List.any_eq_false.mp h'
          refine ⟨by simp, Or.inr ?_⟩
          intro g hg
          rcases List.mem_cons.mp hg with rfl | hg
          · exact hf
          · exact Bool.eq_false_iff.mpr (this g hg)
        next => cases h
      · rintro ⟨_, h | h⟩
        · have := h f (by simp)
          rw [hf] at this; cases this
        · have : l.any (·.legacy) = false := List.any_eq_false.mpr (fun g hg => by rw [h g (by simp [hg])]; simp)
          rw [this]; rfl

theorem increasing_iff (l : List Int) : increasing l = true ↔ l.Pairwise (· < ·) := by
  induction l with
  | nil => simp [increasing]
  | cons x l ih =>
    cases l with
    | nil => simp [increasing]
    | cons y l =>
      rw [increasing, Bool.and_eq_true, ih, decide_eq_true_eq]
      constructor
      · rintro ⟨h1, h2⟩
        refine List.pairwise_cons.mpr ⟨?_, h2⟩
        intro z hz
        rcases List.mem_cons.mp hz with rfl | hz
        · exact h1
        · have := (List.pairwise_cons.mp h2).1 z hz; omega
      · intro h
        have := List.pairwise_cons.mp h
        exact ⟨this.1 y (by simp), this.2⟩

theorem distinct_iff (l : List Nat) : distinct l = true ↔ l.Nodup := by
  induction l with
  | nil => simp [distinct]
  | cons x l ih => simp [distinct, ih]

theorem sortedFrom_iff (l : List Nat) (p : Nat) : sortedFrom p l = true ↔ (∀ x ∈ l, p ≤ x) ∧ l.Pairwise (· ≤ ·) := by
  induction l generalizing p with
  | nil => simp [sortedFrom]
  | cons x l ih =>
    unfold sortedFrom
    split
    next h =>
      constructor
      · intro h'; cases h'
      · intro h'
        have := h'.1 x (by simp)
        omega
    next h =>
      rw [ih, List.pairwise_cons]
      constructor
      · rintro ⟨h1, h2⟩
        refine ⟨?_, h1, h2⟩
        intro y hy
        rcases List.mem_cons.mp hy with rfl | hy
        · omega
        · have := h1 y hy; omega
      · rintro ⟨_, h1, h2⟩
        exact ⟨h1, h2⟩

end Verif.Validate
