import Verif.ListCol.Model
/-! What a column of lists means, apart from how it is stored. -/
namespace Verif.ListCol

/-- Ranges that are not empty and in order, and end at `n` or before. -/
def Ordered (n : Nat) : List Rng → Prop
  | [] => True
  | r :: rs => r.1 < r.2 ∧ r.2 ≤ n ∧ (∀ r' ∈ rs, r.2 ≤ r'.1) ∧ Ordered n rs

/-- As `Ordered`, but the next range may begin at the last row of the one before. -/
def Overlap (n : Nat) : List Rng → Prop
  | [] => True
  | r :: rs => r.1 < r.2 ∧ r.2 ≤ n ∧ (∀ r' ∈ rs, r.2 ≤ r'.1 + 1) ∧ Overlap n rs

/-- The rows that the ranges name. -/
def wanted {α : Type} (xs : List α) (rs : List Rng) : List α := rs.flatMap (slice xs)

/-- `read` gives what the ranges name. -/
def Reads {α : Type} (read : List Rng → Option (List α)) (xs : List α) : Prop :=
  ∀ rs, Ordered xs.length rs → read rs = some (wanted xs rs)

/-- The lists of an arrow array: offsets, validity, values. -/
def lists {α : Type} : List Nat → List Bool → List α → List (Option (List α))
  | a :: b :: os, v :: vs, xs => (if v then some (slice xs (a, b)) else none) :: lists (b :: os) vs xs
  | _, _, _ => []

/-- The flags of an array. -/
def Arr.flags {α : Type} (a : Arr α) : List Bool := a.validity.getD (List.replicate (a.offsets.length - 1) true)

/-- The rows of an array. -/
def Arr.rows {α : Type} (a : Arr α) : List (Option (List α)) := lists a.offsets a.flags a.values

/-- Every offset is at least the one before. -/
def Rising : List Nat → Prop
  | a :: b :: rest => a ≤ b ∧ Rising (b :: rest)
  | _ => True

/-- What arrow ensures of a list array: an array of offsets that begins at 0 or later, does not fall and ends within the
values; validity has one flag for a list. -/
def Arr.Ok {α : Type} (a : Arr α) : Prop :=
  a.offsets ≠ [] ∧ Rising a.offsets ∧ a.offsets.getLastD 0 ≤ a.values.length ∧
    ∀ v, a.validity = some v → v.length = a.offsets.length - 1

/-- The rows that are loaded. -/
def Loaded.rows {α : Type} (l : Loaded α) : List (Option (List α)) := lists l.offsets l.validity l.items

end Verif.ListCol
