import Verif.Blob.Model

/-!
# What blob columns and blob files should do

Stated on the values of the arrays and on a plain file object; nothing here uses the decoder or the cursor of the model.
-/
namespace Verif.Blob
open Verif.ListCol (slice)

/-- Whether value `i` of an array is not null. -/
def BinArray.isValid (a : BinArray) (i : Nat) : Bool :=
  match a.nulls with
  | none => true
  | some v => v.getD i false

/-- Value `i` of an array. -/
def BinArray.valueAt (a : BinArray) (i : Nat) : Option Bytes :=
  if a.isValid i then some (slice a.data (a.offsets.getD i 0, a.offsets.getD (i + 1) 0)) else none

/-- The values of an array. -/
def BinArray.values (a : BinArray) : List (Option Bytes) :=
  (List.range (a.offsets.length - 1)).map a.valueAt

/-- A well-formed array: the offsets do not decrease and stay in the data, and the validity has one bit for every value. -/
structure BinArray.WF (a : BinArray) : Prop where
  nonempty : a.offsets ≠ []
  rising : a.offsets.Pairwise (· ≤ ·)
  inData : ∀ x ∈ a.offsets, x ≤ a.data.length
  nulls : ∀ v, a.nulls = some v → v.length = a.offsets.length - 1

/-- The values written to blob column `c`, batch after batch. -/
def columnValues (batches : List (List BinArray × Bytes)) (c : Nat) : List (Option Bytes) :=
  batches.flatMap (fun b => match b.1[c]? with | some a => a.values | none => [])

/-- The descriptions stored in blob column `c`. -/
def columnDescs (ds : List (List (List Desc))) (c : Nat) : List Desc :=
  ds.flatMap (fun b => b.getD c [])

/-- The schedules a page decoder can be driven with: nobody waits for fewer rows than are loaded and nobody drains rows that
are not loaded (`struct.rs` 475-526 and 735-767 wait only when rows are missing, and drain only what is loaded). -/
def Legal (rows : Nat) : Nat → Nat → List Step → Prop
  | _, _, [] => True
  | loaded, drained, .wait need :: ss => loaded ≤ need + 1 ∧ Legal rows (min (need + 1) rows) drained ss
  | loaded, drained, .drain n :: ss => drained + n ≤ loaded ∧ Legal rows loaded (drained + n) ss

/-- The number of rows a schedule drains. -/
def drainedBy : List Step → Nat
  | [] => 0
  | .wait _ :: ss => drainedBy ss
  | .drain n :: ss => n + drainedBy ss

/-! ## A plain file object -/

/-- A file open for reading. -/
structure Ref where
  contents : Bytes
  cursor : Nat
  closed : Bool
deriving DecidableEq, Repr

/-- Seeking to a negative position, or beyond what an offset can hold, is an error. -/
def Ref.seekAbs (r : Ref) (target : Int) : Ret × Ref :=
  if r.closed then (.raised, r)
  else if 0 ≤ target ∧ target < 2 ^ 64 then (.num target.toNat, { r with cursor := target.toNat })
  else (.raised, r)

/-- What a plain file object does: reads give the bytes from the cursor on, and move the cursor by what they returned. -/
def Ref.step (r : Ref) : Op → Ret × Ref
  | .seek o .set => r.seekAbs o
  | .seek o .cur => r.seekAbs (r.cursor + o)
  | .seek o .fromEnd => r.seekAbs (r.contents.length + o)
  | .tell => if r.closed then (.raised, r) else (.num r.cursor, r)
  | .read n =>
    if r.closed then (.raised, r)
    else
      let d := (r.contents.drop r.cursor).take n
      (.bytes d, { r with cursor := r.cursor + d.length })
  | .readall =>
    if r.closed then (.raised, r)
    else
      let d := r.contents.drop r.cursor
      (.bytes d, { r with cursor := r.cursor + d.length })
  | .close => (.unit, { r with closed := true })
  | .isClosed => (.flag r.closed, r)
  | .size => (.num r.contents.length, r)

def Ref.run : Ref → List Op → List Ret
  | _, [] => []
  | r, op :: ops => (r.step op).1 :: Ref.run (r.step op).2 ops

/-- The call does not depend on a cursor that is lost, and is not a read that starts after the end of the value. -/
def Allowed (lost : Bool) (r : Ref) : Op → Prop
  | .seek _ .cur => r.closed = true ∨ lost = false
  | .tell => r.closed = true ∨ lost = false
  | .read _ => r.closed = true ∨ (lost = false ∧ r.cursor ≤ r.contents.length)
  | .readall => r.closed = true ∨ (lost = false ∧ r.cursor ≤ r.contents.length)
  | _ => True

/-- Whether the cursor is lost after the call: a `readall` loses it, a seek to a place that does not depend on it finds it. -/
def lostAfter (position : Nat) (lost : Bool) (r : Ref) : Op → Bool
  | .readall => decide (position ≠ 0)
  | .seek o .set => if 0 ≤ o ∧ o < 2 ^ 64 then false else lost
  | .seek o .fromEnd => if 0 ≤ r.contents.length + o ∧ r.contents.length + o < 2 ^ 64 then false else lost
  | _ => lost

/-- Histories without the two known faults: nothing depends on the cursor between a `readall` and the next seek to a place
that does not depend on it (needed unless the value starts at position 0 of its data file), and no read starts after the end
of the value. -/
def Safe (position : Nat) : Bool → Ref → List Op → Prop
  | _, _, [] => True
  | lost, r, op :: ops => Allowed lost r op ∧ Safe position (lostAfter position lost r op) (r.step op).2 ops

end Verif.Blob
