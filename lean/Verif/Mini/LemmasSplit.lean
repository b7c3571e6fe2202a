import Verif.Mini.Spec
/-!
# Mini-block pages: slots cut into rows
-/
namespace Verif.Mini

variable {V : Type}

/-- Cut slots at the row starts: what comes before the first row start, and the rows. -/
def split (m : Nat) : List (Slot V) → List (Slot V) × List (List (Slot V))
  | [] => ([], [])
  | s :: ss =>
    if s.rep = m then ([], (s :: (split m ss).1) :: (split m ss).2)
    else (s :: (split m ss).1, (split m ss).2)

/-- Append to the last row. -/
def extendLast {A : Type} : List (List A) → List A → List (List A)
  | [], _ => []
  | [r], q => [r ++ q]
  | r :: s :: rs, q => r :: extendLast (s :: rs) q

def glue {A : Type} (a b : List A × List (List A)) : List A × List (List A) :=
  if a.2 = [] then (a.1 ++ b.1, b.2) else (a.1, extendLast a.2 b.1 ++ b.2)

theorem extendLast_cons {A : Type} (r : List A) (rs : List (List A)) (q : List A) (h : rs ≠ []) :
    extendLast (r :: rs) q = r :: extendLast rs q := by
  cases rs with
  | nil => exact absurd rfl h
  | cons s rs => rfl

theorem extendLast_nil {A : Type} (rs : List (List A)) : extendLast rs [] = rs := by
  induction rs with
  | nil => rfl
  | cons r rs ih =>
    by_cases h : rs = []
    · subst h; simp [extendLast]
    · rw [extendLast_cons _ _ _ h, ih]

theorem extendLast_length {A : Type} (rs : List (List A)) (q : List A) :
    (extendLast rs q).length = rs.length := by
  induction rs with
  | nil => rfl
  | cons r rs ih =>
    by_cases h : rs = []
    · subst h; simp [extendLast]
    · rw [extendLast_cons _ _ _ h]; simp [ih]

theorem extendLast_append {A : Type} (as bs : List (List A)) (q : List A) (h : bs ≠ []) :
    extendLast (as ++ bs) q = as ++ extendLast bs q := by
  induction as with
  | nil => rfl
  | cons a as ih =>
    rw [List.cons_append, extendLast_cons _ _ _ (by simp [h]), ih, List.cons_append]

theorem extendLast_flatten {A : Type} (rs : List (List A)) (q : List A) (h : rs ≠ []) :
    (extendLast rs q).flatten = rs.flatten ++ q := by
  induction rs with
  | nil => exact absurd rfl h
  | cons r rs ih =>
    by_cases hr : rs = []
    · subst hr; simp [extendLast]
    · rw [extendLast_cons _ _ _ hr]; simp [ih hr]

theorem extendLast_take {A : Type} (rs : List (List A)) (q : List A) (n : Nat) (h : n < rs.length) :
    (extendLast rs q).take n = rs.take n := by
  induction rs generalizing n with
  | nil => simp at h
  | cons r rs ih =>
    by_cases hr : rs = []
    · subst hr
      have : n = 0 := by simp at h; omega
      subst this; simp
    · rw [extendLast_cons _ _ _ hr]
      cases n with
      | zero => simp
      | succ n => simp [ih n (by simpa using h)]

theorem extendLast_drop {A : Type} (rs : List (List A)) (q : List A) (n : Nat) :
    (extendLast rs q).drop n = extendLast (rs.drop n) q := by
  induction rs generalizing n with
  | nil => simp [extendLast]
  | cons r rs ih =>
    cases n with
    | zero => simp
    | succ n =>
      by_cases hr : rs = []
      · subst hr; simp [extendLast]
      · rw [extendLast_cons _ _ _ hr]; simp [ih]

theorem split_append (m : Nat) (a b : List (Slot V)) :
    split m (a ++ b) = glue (split m a) (split m b) := by
  induction a with
  | nil => simp [split, glue]
  | cons s ss ih =>
    simp only [List.cons_append, split, ih]
    by_cases hs : s.rep = m
    · simp only [hs, if_true]
      by_cases h : (split m ss).2 = []
      · simp [glue, h, extendLast]
      · simp [glue, h, extendLast_cons]
    · simp only [hs, if_false]
      by_cases h : (split m ss).2 = []
      · simp [glue, h]
      · simp [glue, h]

theorem split_flatten (m : Nat) (s : List (Slot V)) : (split m s).1 ++ (split m s).2.flatten = s := by
  induction s with
  | nil => rfl
  | cons a s ih =>
    simp only [split]
    by_cases h : a.rep = m
    · simp [h, ih]
    · simp [h, ih]

theorem split_pre (m : Nat) (s : List (Slot V)) : ∀ t ∈ (split m s).1, t.rep ≠ m := by
  induction s with
  | nil => intro t ht; simp [split] at ht
  | cons a s ih =>
    simp only [split]
    by_cases h : a.rep = m
    · simp [h]
    · simp only [h, if_false, List.mem_cons]
      rintro t (rfl | ht)
      · exact h
      · exact ih t ht

/-- The rows of `split` start with a row start and have no other. -/
def IsRow (m : Nat) : List (Slot V) → Prop
  | [] => False
  | s :: rest => s.rep = m ∧ ∀ t ∈ rest, t.rep ≠ m

theorem split_rows (m : Nat) (s : List (Slot V)) : ∀ r ∈ (split m s).2, IsRow m r := by
  induction s with
  | nil => intro t ht; simp [split] at ht
  | cons a s ih =>
    simp only [split]
    by_cases h : a.rep = m
    · simp only [h, if_true, List.mem_cons]
      rintro r (rfl | hr)
      · exact ⟨h, split_pre m s⟩
      · exact ih r hr
    · simp only [h, if_false]; exact ih

theorem split_tail (m : Nat) (t : List (Slot V)) (h : ∀ x ∈ t, x.rep ≠ m) : split m t = (t, []) := by
  induction t with
  | nil => rfl
  | cons a t ih =>
    rw [split, ih (fun x hx => h x (List.mem_cons_of_mem _ hx)), if_neg (h a List.mem_cons_self)]

theorem split_isRows (m : Nat) (rows : List (List (Slot V))) (h : ∀ r ∈ rows, IsRow m r) :
    split m rows.flatten = ([], rows) := by
  induction rows with
  | nil => rfl
  | cons r rows ih =>
    have h' := ih (fun x hx => h x (List.mem_cons_of_mem _ hx))
    rw [List.flatten_cons, split_append, h']
    have hr := h r List.mem_cons_self
    cases r with
    | nil => exact absurd hr (by simp [IsRow])
    | cons s rest =>
      rw [split, split_tail m rest hr.2, if_pos hr.1]
      simp [glue, extendLast]

theorem split_length_append (m : Nat) (a b : List (Slot V)) :
    (split m (a ++ b)).2.length = (split m a).2.length + (split m b).2.length := by
  rw [split_append]
  simp only [glue]
  by_cases h : (split m a).2 = []
  · simp [h]
  · simp [h, extendLast_length]

theorem split_drop_append (m : Nat) (a b : List (Slot V)) :
    (split m (a ++ b)).2.drop (split m a).2.length = (split m b).2 := by
  rw [split_append]
  simp only [glue]
  by_cases h : (split m a).2 = []
  · simp [h]
  · rw [if_neg h]
    simp [List.drop_append, extendLast_length]

/-- A slice starts inside a row if and only if it is not empty and does not start with a row start. -/
theorem split_pre_nil_iff (m : Nat) (s : List (Slot V)) :
    (split m s).1 = [] ↔ s = [] ∨ ∃ a t, s = a :: t ∧ a.rep = m := by
  cases s with
  | nil => simp [split]
  | cons a t =>
    simp only [split]
    by_cases h : a.rep = m
    · simp [h]
    · simp [h]

theorem split_rows_ne (m : Nat) (s : List (Slot V)) (hne : s ≠ []) (hpre : (split m s).1 = []) :
    (split m s).2 ≠ [] := by
  intro h
  have := split_flatten m s
  rw [hpre, h] at this
  exact hne (by simpa using this.symm)

theorem split_length_eq (m : Nat) (s : List (Slot V)) :
    (split m s).2.length = s.countP (fun t => t.rep == m) := by
  induction s with
  | nil => rfl
  | cons a s ih =>
    simp only [split]
    by_cases h : a.rep = m
    · simp [h, ih]
    · simp [h, ih]

end Verif.Mini
