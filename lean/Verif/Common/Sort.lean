/-!
# Stable insertion sort by a key

Stands for the standard library's stable `sort`, `sort_by_key` and for `sort_unstable` where equal
keys are equal values; the specification is what the std documentation promises: a permutation,
sorted, equal keys in their old order.
-/
namespace Verif

/-- Insert before the first element with a larger key. -/
def insertBy {α : Type} (key : α → Nat) (x : α) : List α → List α
  | [] => [x]
  | y :: ys => if key x ≤ key y then x :: y :: ys else y :: insertBy key x ys

/-- Stable sort by key. -/
def sortBy {α : Type} (key : α → Nat) : List α → List α
  | [] => []
  | x :: xs => insertBy key x (sortBy key xs)

variable {α : Type} (key : α → Nat)

theorem insertBy_perm (x : α) (l : List α) : (insertBy key x l).Perm (x :: l) := by
  induction l with
  | nil => exact List.Perm.refl _
  | cons y ys ih =>
    unfold insertBy
    split
    · exact List.Perm.refl _
    · exact (List.Perm.cons y ih).trans (List.Perm.swap x y ys)

theorem sortBy_perm (l : List α) : (sortBy key l).Perm l := by
  induction l with
  | nil => exact List.Perm.refl _
  | cons x xs ih => exact (insertBy_perm key x _).trans (List.Perm.cons x ih)

theorem mem_sortBy {l : List α} {a : α} : a ∈ sortBy key l ↔ a ∈ l := (sortBy_perm key l).mem_iff

theorem length_sortBy (l : List α) : (sortBy key l).length = l.length := (sortBy_perm key l).length_eq

theorem insertBy_sorted (x : α) (l : List α) (h : l.Pairwise (fun a b => key a ≤ key b)) :
    (insertBy key x l).Pairwise (fun a b => key a ≤ key b) := by
  induction l with
  | nil => exact List.pairwise_singleton _ _
  | cons y ys ih =>
    obtain ⟨h1, h2⟩ := List.pairwise_cons.1 h
    unfold insertBy
    split
    · rename_i hle
      refine List.Pairwise.cons ?_ h
      intro a ha
      rcases List.mem_cons.1 ha with rfl | ha
      · exact hle
      · exact Nat.le_trans hle (h1 a ha)
    · rename_i hgt
      refine List.Pairwise.cons ?_ (ih h2)
      intro a ha
      rcases List.mem_cons.1 ((insertBy_perm key x ys).mem_iff.1 ha) with rfl | ha
      · omega
      · exact h1 a ha

theorem sortBy_sorted (l : List α) : (sortBy key l).Pairwise (fun a b => key a ≤ key b) := by
  induction l with
  | nil => exact List.Pairwise.nil
  | cons x xs ih => exact insertBy_sorted key x _ ih

theorem insertBy_of_le (x : α) (l : List α) (h : ∀ a ∈ l, key x ≤ key a) : insertBy key x l = x :: l := by
  cases l with
  | nil => rfl
  | cons y ys => unfold insertBy; rw [if_pos (h y List.mem_cons_self)]

theorem sortBy_of_sorted (l : List α) (h : l.Pairwise (fun a b => key a ≤ key b)) : sortBy key l = l := by
  induction l with
  | nil => rfl
  | cons x xs ih =>
    obtain ⟨h1, h2⟩ := List.pairwise_cons.1 h
    unfold sortBy
    rw [ih h2, insertBy_of_le key x xs h1]

/-- Elements with a given key keep their order. -/
theorem insertBy_filter (x : α) (l : List α) (k : Nat) :
    (insertBy key x l).filter (fun a => key a == k) =
      if key x = k then x :: l.filter (fun a => key a == k) else l.filter (fun a => key a == k) := by
  induction l with
  | nil => by_cases h : key x = k <;> simp [insertBy, h]
  | cons y ys ih =>
    unfold insertBy
    split
    · by_cases h : key x = k <;> simp [List.filter_cons, h]
    · rename_i hgt
      rw [List.filter_cons, ih]
      by_cases h : key x = k
      · have : ¬ key y = k := by omega
        simp [List.filter_cons, h, this]
      · simp [List.filter_cons, h]

theorem sortBy_stable (l : List α) (k : Nat) :
    (sortBy key l).filter (fun a => key a == k) = l.filter (fun a => key a == k) := by
  induction l with
  | nil => rfl
  | cons x xs ih =>
    unfold sortBy
    rw [insertBy_filter, ih]
    by_cases h : key x = k <;> simp [List.filter_cons, h]

example : sortBy id [3, 1, 2, 1] = [1, 1, 2, 3] := by decide

end Verif
