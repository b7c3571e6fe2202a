/-!
# Compressed integer arrays

Models `rust/lance-table/src/rowids/encoded_array.rs`.
-/
namespace Verif.RowIds

/-- encoded_array.rs:12-28 `EncodedU64Array`. -/
inductive Enc where
  | u16 (base : Nat) (offsets : List Nat)
  | u32 (base : Nat) (offsets : List Nat)
  | u64 (values : List Nat)
deriving DecidableEq, Repr

namespace Enc

/-- encoded_array.rs:31-37 `len`. -/
def len : Enc → Nat
  | u16 _ o => o.length
  | u32 _ o => o.length
  | u64 v => v.length

/-- encoded_array.rs:39-49 `iter` (and `into_iter`, 257-268). -/
def iter : Enc → List Nat
  | u16 b o => o.map (b + ·)
  | u32 b o => o.map (b + ·)
  | u64 v => v

/-- encoded_array.rs:51-69 `get`. -/
def get : Enc → Nat → Option Nat
  | u16 b o, i => (o[i]?).map (b + ·)
  | u32 b o, i => (o[i]?).map (b + ·)
  | u64 v, i => v[i]?

/-- encoded_array.rs:71-89 `min`. -/
def min : Enc → Option Nat
  | u16 b o => if o.isEmpty then none else some b
  | u32 b o => if o.isEmpty then none else some b
  | u64 v => v.min?

/-- encoded_array.rs:91-109 `max`. -/
def max : Enc → Option Nat
  | u16 b o => (o.max?).map (b + ·)
  | u32 b o => (o.max?).map (b + ·)
  | u64 v => v.max?

/-- encoded_array.rs:111-129 `first`. -/
def first : Enc → Option Nat
  | u16 b o => (o.head?).map (b + ·)
  | u32 b o => (o.head?).map (b + ·)
  | u64 v => v.head?

/-- encoded_array.rs:131-149 `last`. -/
def last : Enc → Option Nat
  | u16 b o => (o.getLast?).map (b + ·)
  | u32 b o => (o.getLast?).map (b + ·)
  | u64 v => v.getLast?

/-- `slice::binary_search` on an increasing slice without duplicates: the index of the value, or the
index at which it could be inserted.  Standard library; only its documented result on sorted
input is represented. -/
def binSearch (l : List Nat) (v : Nat) : Except Nat Nat :=
  if l.contains v then .ok (l.idxOf v) else .error (l.countP (fun x => decide (x < v)))

/-- encoded_array.rs:151-175 `binary_search`. -/
def search : Enc → Nat → Except Nat Nat
  | u16 b o, v => if v < b then .error 0
      else if v - b > 65535 then .error o.length else binSearch o (v - b)
  | u32 b o, v => if v < b then .error 0
      else if v - b > 4294967295 then .error o.length else binSearch o (v - b)
  | u64 l, v => binSearch l v

/-- encoded_array.rs:195-213 `From<Vec<u64>>`; `as u16`/`as u32` truncate. -/
def ofList (values : List Nat) : Enc :=
  let mn := (values.min?).getD 0
  let mx := (values.max?).getD 0
  let range := mx - mn
  if values.isEmpty then u64 []
  else if range ≤ 65535 then u16 mn (values.map (fun v => (v - mn) % 65536))
  else if range ≤ 4294967295 then u32 mn (values.map (fun v => (v - mn) % 4294967296))
  else u64 values

/-- encoded_array.rs:215-232 `From<Range<u64>>`. -/
def ofRange (mn mx : Nat) : Enc :=
  let range := mx - mn
  if range < 65535 then u16 mn (List.range (range % 65536))
  else if range < 4294967295 then u32 mn (List.range (range % 4294967296))
  else u64 (List.range' mn (mx - mn))

/-- encoded_array.rs:177-192 `slice`; out of bounds is a panic (`none`). -/
def slice (e : Enc) (offset len : Nat) : Option Enc :=
  if offset + len > e.len then none
  else match e with
    | u16 b o => some (ofList (((o.drop offset).take len).map (b + ·)))
    | u32 b o => some (ofList (((o.drop offset).take len).map (b + ·)))
    | u64 v => some (u64 ((v.drop offset).take len))

end Enc
end Verif.RowIds
