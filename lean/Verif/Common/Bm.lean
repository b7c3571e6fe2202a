/-!
# Finite sets of offsets

`roaring::RoaringBitmap`, `HashSet<u32>` and similar containers are represented by
lists of natural numbers.  The operations keep lists strictly increasing (`Bm.Sorted`), which
is the order in which `RoaringBitmap::iter` yields its values.

This file models the documented behaviour of a third-party container, no file of /repo.
-/
namespace Verif

/-- A finite set of offsets, kept strictly increasing by all operations below. -/
abbrev Bm := List Nat

namespace Bm

/-- Strictly increasing. -/
def Sorted (s : Bm) : Prop := s.Pairwise (· < ·)

/-- Membership test (`RoaringBitmap::contains`). -/
def has (s : Bm) (x : Nat) : Bool := s.contains x

/-- `RoaringBitmap::insert`. -/
def insert (x : Nat) : Bm → Bm
  | [] => [x]
  | y :: ys => if x < y then x :: y :: ys else if x = y then y :: ys else y :: insert x ys

/-- `RoaringBitmap::remove`. -/
def remove (x : Nat) (s : Bm) : Bm := s.filter (· != x)

/-- `|=` on bitmaps. -/
def union (s t : Bm) : Bm := t.foldl (fun acc x => insert x acc) s

/-- `&=` on bitmaps. -/
def inter (s t : Bm) : Bm := s.filter (t.has ·)

/-- `-=` on bitmaps. -/
def diff (s t : Bm) : Bm := s.filter (!t.has ·)

/-- `FromIterator`. -/
def ofList (l : List Nat) : Bm := union [] l

/-- The half-open range `[a, b)`. -/
def range (a b : Nat) : Bm := List.range' a (b - a)

@[simp] theorem has_iff (s : Bm) (x : Nat) : s.has x = true ↔ x ∈ s := by
  simp [has]

@[simp] theorem mem_insert (x y : Nat) (s : Bm) : y ∈ insert x s ↔ y = x ∨ y ∈ s := by
  induction s with
  | nil => simp [insert]
  | cons z zs ih =>
    simp only [insert]
    split
    · simp
    · split
      · subst_vars; simp
      · simp only [List.mem_cons, ih]
        constructor
        · rintro (h | h | h) <;> simp [h]
        · rintro (h | h | h) <;> simp [h]

@[simp] theorem mem_remove (x y : Nat) (s : Bm) : y ∈ remove x s ↔ y ∈ s ∧ y ≠ x := by
  simp [remove]

@[simp] theorem mem_union (y : Nat) (s t : Bm) : y ∈ union s t ↔ y ∈ s ∨ y ∈ t := by
  unfold union
  induction t generalizing s with
  | nil => simp
  | cons z zs ih =>
    simp only [List.foldl_cons, ih, mem_insert, List.mem_cons]
    constructor
    · rintro ((h | h) | h) <;> simp [h]
    · rintro (h | h | h) <;> simp [h]

@[simp] theorem mem_inter (y : Nat) (s t : Bm) : y ∈ inter s t ↔ y ∈ s ∧ y ∈ t := by
  simp [inter]

@[simp] theorem mem_diff (y : Nat) (s t : Bm) : y ∈ diff s t ↔ y ∈ s ∧ y ∉ t := by
  simp [diff, has]

@[simp] theorem mem_ofList (y : Nat) (l : List Nat) : y ∈ ofList l ↔ y ∈ l := by
  simp [ofList]

@[simp] theorem mem_range (y a b : Nat) : y ∈ range a b ↔ a ≤ y ∧ y < b := by
  simp only [range, List.mem_range'_1]; omega

theorem sorted_nil : Sorted [] := List.Pairwise.nil

theorem sorted_insert (x : Nat) (s : Bm) (h : s.Sorted) : (insert x s).Sorted := by
  induction s with
  | nil => simp [insert, Sorted]
  | cons z zs ih =>
    have hz : ∀ a ∈ zs, z < a := (List.pairwise_cons.1 h).1
    have hs : Sorted zs := (List.pairwise_cons.1 h).2
    simp only [insert]
    split
    · refine List.pairwise_cons.2 ⟨?_, h⟩
      intro a ha
      rcases List.mem_cons.1 ha with rfl | ha
      · assumption
      · have := hz a ha; omega
    · split
      · exact h
      · refine List.pairwise_cons.2 ⟨?_, ih hs⟩
        intro a ha
        rcases (mem_insert _ _ _).1 ha with rfl | ha
        · omega
        · exact hz a ha

theorem sorted_filter (p : Nat → Bool) (s : Bm) (h : s.Sorted) : Sorted (s.filter p) :=
  List.Pairwise.filter p h

theorem sorted_remove (x : Nat) (s : Bm) (h : s.Sorted) : (remove x s).Sorted := sorted_filter _ _ h
theorem sorted_inter (s t : Bm) (h : s.Sorted) : (inter s t).Sorted := sorted_filter _ _ h
theorem sorted_diff (s t : Bm) (h : s.Sorted) : (diff s t).Sorted := sorted_filter _ _ h

theorem sorted_union (s t : Bm) (h : s.Sorted) : (union s t).Sorted := by
  unfold union
  induction t generalizing s with
  | nil => exact h
  | cons z zs ih => exact ih _ (sorted_insert z s h)

theorem sorted_ofList (l : List Nat) : (ofList l).Sorted := sorted_union _ _ sorted_nil

theorem sorted_range (a b : Nat) : (range a b).Sorted := by
  unfold range Sorted
  exact List.pairwise_lt_range' (s := a) (n := b - a)

theorem Sorted.nodup {s : Bm} (h : s.Sorted) : s.Nodup :=
  List.Pairwise.imp (fun hab => by omega) h

/-- Two strictly increasing lists with the same members are equal. -/
theorem Sorted.ext {s t : Bm} (hs : s.Sorted) (ht : t.Sorted) (h : ∀ x, x ∈ s ↔ x ∈ t) : s = t := by
  induction s generalizing t with
  | nil =>
    cases t with
    | nil => rfl
    | cons y ys => exact absurd ((h y).2 (by simp)) (by simp)
  | cons x xs ih =>
    cases t with
    | nil => exact absurd ((h x).1 (by simp)) (by simp)
    | cons y ys =>
      have hx := List.pairwise_cons.1 hs
      have hy := List.pairwise_cons.1 ht
      have hxy : x = y := by
        have h1 := (h x).1 (by simp)
        have h2 := (h y).2 (by simp)
        rcases List.mem_cons.1 h1 with e | h1
        · exact e
        · rcases List.mem_cons.1 h2 with e | h2
          · exact e.symm
          · have := hy.1 x h1; have := hx.1 y h2; omega
      subst hxy
      congr 1
      refine ih hx.2 hy.2 (fun z => ?_)
      have hz := h z
      simp only [List.mem_cons] at hz
      constructor
      · intro hm
        have := hx.1 z hm
        rcases hz.1 (Or.inr hm) with e | e
        · omega
        · exact e
      · intro hm
        have := hy.1 z hm
        rcases hz.2 (Or.inr hm) with e | e
        · omega
        · exact e

end Bm
end Verif
