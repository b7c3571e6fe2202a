import Verif.Phys.Model
import Verif.ListCol.Spec
/-! What the pages of a column must give back: the values of the arrays that were written. -/
namespace Verif.Phys
open Verif.ListCol (Rng slice rows wanted Rising)

/-- A null buffer, if there is one, over values. -/
def maskO (v : Option (List Bool)) (vs : List Val) : List Val :=
  match v with
  | none => vs
  | some f => mask f vs

/-- Value `i` of a field of a struct. -/
def fieldVal (w : Nat) (f : Option (List Bool) × List Nat) (i : Nat) : Val :=
  if (f.1.map (·.getD i false)).getD true then .bytes (slice f.2 (i * w, i * w + w)) else .null

/-- The values of an arrow array of type `t`. -/
def Arr.vals : Arr → Ty → List Val
  | .null n, _ => List.replicate n .null
  | .bool v bs, _ => maskO v (bs.map .bit)
  | .prim v data n, .prim w => maskO v ((chunk w n data).map .bytes)
  | .bin v os data, _ => maskO v (strs os data)
  | .fsl v child n, .fsl inner d => maskO v ((chunk d n (child.vals inner)).map .list)
  | .dict v keys values, .dict _ _ vt => maskO v (keys.map (fun k => (values.vals vt).getD k .null))
  | .packed v fields n, .packed ws =>
    maskO v ((List.range n).map (fun i => .list (List.zipWith (fun w f => fieldVal w f i) ws fields)))
  | _, _ => []

/-- A null buffer has a flag for each value. -/
def FlagsOk (v : Option (List Bool)) (n : Nat) : Prop := ∀ f, v = some f → f.length = n

/-- `Arr.HasTy a t`: `a` is an arrow array of type `t`. A null key may have any value that fits in the key type. -/
def Arr.HasTy : Arr → Ty → Prop
  | .null _, .null => True
  | .bool v bs, .bool => FlagsOk v bs.length
  | .prim v data n, .prim w => FlagsOk v n ∧ data.length = n * w
  | .bin v os data, .bin _ => FlagsOk v (os.length - 1) ∧ os ≠ [] ∧ Rising os ∧ os.getLastD 0 ≤ data.length
  | .fsl v child n, .fsl inner d => FlagsOk v n ∧ 0 < d ∧ child.len = n * d ∧ child.HasTy inner
  | .dict v keys values, .dict w signed vt =>
    FlagsOk v keys.length ∧ values.HasTy vt ∧ (∀ k ∈ keys, k ≤ maxIndexVal w signed) ∧ 0 < w ∧ w ≤ 8 ∧
      (∀ i, (v.map (·.getD i false)).getD true = true → ∀ k, keys[i]? = some k → k < values.len)
  | .packed v fields n, .packed ws =>
    FlagsOk v n ∧ fields.length = ws.length ∧ (∀ i, i < ws.length → (fields.getD i (none, [])).2.length = n * ws.getD i 0) ∧
      (∀ f ∈ fields, FlagsOk f.1 n)
  | _, _ => False

/-- Ranges of rows of a page with `n` rows, none of them empty. They may overlap and be in any order. -/
def InB (n : Nat) (ranges : List Rng) : Prop := ∀ r ∈ ranges, r.1 < r.2 ∧ r.2 ≤ n

/-- A batch of `num` rows after `skip` rows begins where a range begins, or ends in the range it begins in. -/
def Fits : List Rng → Nat → Nat → Prop
  | [], _, _ => True
  | r :: rs, skip, num =>
    if r.2 - r.1 ≤ skip then Fits rs (skip - (r.2 - r.1)) num else skip = 0 ∨ skip + num ≤ r.2 - r.1

/-- All batches fit. -/
def FitsAll (ranges : List Rng) : Nat → List Nat → Prop
  | _, [] => True
  | skip, n :: ns => Fits ranges skip n ∧ FitsAll ranges (skip + n) ns

/-- A list in pieces. -/
def cuts {α : Type} (xs : List α) : Nat → List Nat → List (List α)
  | _, [] => []
  | a, n :: ns => slice xs (a, a + n) :: cuts xs (a + n) ns

/-- The buffers of a page are somewhere in the file. -/
def Placed (file : List Nat) (bufs : List Rng) (buffers : List (List Nat)) : Prop :=
  ∀ (i : Nat) (b : List Nat), buffers[i]? = some b → ∃ p, bufs[i]? = some (p, b.length) ∧ slice file (p, p + b.length) = b

/-- The codec is lossless. -/
def Codec.Ok (c : Codec) : Prop := ∀ x, c.decomp (c.comp x) = some x

/-- Types without strings, dictionaries and structs. -/
def Ty.flat : Ty → Bool
  | .null | .bool | .prim _ => true
  | .fsl inner _ => inner.flat
  | _ => false

end Verif.Phys
