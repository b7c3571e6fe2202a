import Verif.Deletion.Spec

/-!
# Bitmaps

Models `rust/lance-table/src/rowids/bitmap.rs`.  Bytes are numbers below 256; reading or writing
past the end of the data is a panic (`none`).
-/
namespace Verif.RowIds
open Verif.Deletion (countBelow)

/-- bitmap.rs:6-10. -/
structure Bitmap where
  data : List Nat
  len : Nat
deriving DecidableEq, Repr

/-- `u8::count_ones` (standard library). -/
def popcount (x : Nat) : Nat := countBelow x.testBit 8

namespace Bitmap

/-- bitmap.rs:23-26 `new_empty`. -/
def newEmpty (len : Nat) : Bitmap := ⟨List.replicate ((len + 7) / 8) 0, len⟩

/-- bitmap.rs:34-37, the loop that clears the bits past the end in the last byte. -/
def clearHigh (remainder byte : Nat) : Nat :=
  (List.range (8 - remainder)).foldl (fun b off => b &&& (255 ^^^ (1 <<< (7 - off)))) byte

/-- bitmap.rs:28-41 `new_full`. -/
def newFull (len : Nat) : Bitmap :=
  let data := List.replicate ((len + 7) / 8) 255
  let remainder := len % 8
  if remainder ≠ 0 then ⟨data.modify (data.length - 1) (clearHigh remainder), len⟩
  else ⟨data, len⟩

/-- bitmap.rs:43-45 `set`. -/
def set (b : Bitmap) (i : Nat) : Option Bitmap :=
  if i / 8 < b.data.length then some { b with data := b.data.modify (i / 8) (· ||| (1 <<< (i % 8))) }
  else none

/-- bitmap.rs:47-49 `clear`. -/
def clear (b : Bitmap) (i : Nat) : Option Bitmap :=
  if i / 8 < b.data.length then
    some { b with data := b.data.modify (i / 8) (· &&& (255 ^^^ (1 <<< (i % 8)))) }
  else none

/-- bitmap.rs:51-53 `get`. -/
def get (b : Bitmap) (i : Nat) : Option Bool :=
  (b.data[i / 8]?).map (fun x => (x &&& (1 <<< (i % 8))) != 0)

/-- bitmap.rs:67-69 `count_ones`. -/
def countOnes (b : Bitmap) : Nat := (b.data.map popcount).sum

/-- bitmap.rs:71-73 `count_zeros`; `none` on underflow. -/
def countZeros (b : Bitmap) : Option Nat :=
  if b.countOnes ≤ b.len then some (b.len - b.countOnes) else none

/-- bitmap.rs:79-84, the loop of `From<&[bool]>`. -/
def fromBoolsLoop : List Bool → Nat → Bitmap → Option Bitmap
  | [], _, b => some b
  | true :: xs, i, b => (b.set i).bind (fromBoolsLoop xs (i + 1))
  | false :: xs, i, b => fromBoolsLoop xs (i + 1) b

/-- bitmap.rs:76-87 `From<&[bool]>`. -/
def fromBools (l : List Bool) : Option Bitmap := fromBoolsLoop l 0 (newEmpty l.length)

/-- Loops `for i in lo..hi { if byte & (1 << i) != 0 { count += 1 } }` (bitmap.rs:107-111, 116-120,
123-127). -/
def countBits (byte lo hi : Nat) : Nat :=
  ((List.range' lo (hi - lo)).filter (fun i => (byte &&& (1 <<< i)) != 0)).length

/-- bitmap.rs:97-137 `BitmapSlice::count_ones` for the slice at `start` of length `len`. -/
def sliceCountOnes (b : Bitmap) (start len : Nat) : Option Nat :=
  if len = 0 then some 0
  else
    let firstByte := start / 8
    let lastByte := (start + len - 1) / 8
    if firstByte = lastByte then
      (b.data[firstByte]?).map (fun byte => countBits byte (start % 8) ((start + len - 1) % 8 + 1))
    else
      match b.data[firstByte]?, b.data[lastByte]? with
      | some f, some l =>
        some (countBits f (start % 8) 8 + countBits l 0 ((start + len - 1) % 8 + 1)
          + (((b.data.drop (firstByte + 1)).take (lastByte - (firstByte + 1))).map popcount).sum)
      | _, _ => none

/-- bitmap.rs:139-141 `BitmapSlice::count_zeros`. -/
def sliceCountZeros (b : Bitmap) (start len : Nat) : Option Nat :=
  (b.sliceCountOnes start len).bind (fun n => if n ≤ len then some (len - n) else none)

/-- bitmap.rs:147-151, the loop of `From<BitmapSlice>`. -/
def fromSliceLoop (b : Bitmap) (start : Nat) : Nat → Nat → Bitmap → Option Bitmap
  | 0, _, acc => some acc
  | n + 1, i, acc =>
    match b.get (start + i) with
    | none => none
    | some true => (acc.set i).bind (fromSliceLoop b start n (i + 1))
    | some false => fromSliceLoop b start n (i + 1) acc

/-- bitmap.rs:144-154 `From<BitmapSlice>`. -/
def fromSlice (b : Bitmap) (start len : Nat) : Option Bitmap := fromSliceLoop b start len 0 (newEmpty len)

end Bitmap
end Verif.RowIds
