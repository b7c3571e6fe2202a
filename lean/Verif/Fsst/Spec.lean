import Verif.Fsst.Model
/-!
# FSST: what is claimed

Nothing here mentions symbols, codes or tables.
-/
namespace Verif.Fsst

/-- The strings that an array with the given offsets holds. -/
def strings (buf : List Nat) : List Nat → List (List Nat)
  | a :: b :: rest => (buf.drop a).take (b - a) :: strings buf (b :: rest)
  | _ => []

/-- The offsets of strings put one after the other, the first at `a`. -/
def offsetsFrom (a : Nat) : List (List Nat) → List Nat
  | [] => [a]
  | s :: ss => a :: offsetsFrom (a + s.length) ss

/-- Offsets that do not decrease and stay within a buffer of `n` bytes. -/
def OffsetsOk (n : Nat) : List Nat → Prop
  | a :: b :: rest => a ≤ b ∧ OffsetsOk n (b :: rest)
  | [a] => a ≤ n
  | [] => False

/-- An array of strings: bytes, and offsets into them. -/
structure ArrayOk (buf offsets : List Nat) : Prop where
  bytes : ∀ b ∈ buf, b < 256
  offsets : OffsetsOk buf.length offsets

/-- The given rows of an array, in the given order, as bytes and offsets. -/
def rowsOf (strs : List (List Nat)) (rows : List Nat) : List (List Nat) := rows.map fun i => strs.getD i []

end Verif.Fsst
