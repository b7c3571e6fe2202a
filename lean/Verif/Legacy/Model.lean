import Verif.Phys.Model
/-! Model of the pages of legacy (version 0.1) files that hold values of a fixed width:
`rust/lance-io/src/encodings/plain.rs`, with `byte_width` of `rust/lance-arrow/src/lib.rs`.

A file is the list of its bytes; arrow arrays are the lists of their elements.  Both an error and a panic are `none`.
Row numbers and positions are `Nat` (the code has `usize` and `u32`). -/
namespace Verif.Legacy
open Verif.ListCol (slice)
open Verif.Phys (chunk packBits bitsOf)

/-- The types that are `is_fixed_stride`, rust/lance-arrow/src/lib.rs 79-106.  The numeric and temporal types differ by
the width of their values only. -/
inductive Ty where
  | bool
  | prim (width : Nat)
  | fsb (width : Nat)
  | fsl (dim : Nat) (item : Ty)
deriving DecidableEq, Repr

/-- `byte_width`, lance-arrow/src/lib.rs 112-147: it panics for booleans, also inside of a fixed size list (139). -/
def Ty.byteWidth : Ty → Option Nat
  | .bool => none
  | .prim w => some w
  | .fsb w => some w
  | .fsl n t => t.byteWidth.map (n * ·)

/-- The type of the elements that are stored for a column: fixed size lists are unfolded, plain.rs 64-73 and 121-155. -/
def Ty.leaf : Ty → Ty
  | .fsl _ t => t.leaf
  | t => t

/-- The number of these elements for each row. -/
def Ty.mult : Ty → Nat
  | .fsl n t => n * t.mult
  | _ => 1

/-- An element: a boolean, or the bytes of a value. -/
inductive Item where
  | bit (b : Bool)
  | raw (bytes : List Nat)
deriving DecidableEq, Repr

/-- The boolean of an element. -/
def Item.toBit : Item → Bool
  | .bit b => b
  | .raw _ => false

/-- The bytes of an element. -/
def Item.toRaw : Item → List Nat
  | .bit _ => []
  | .raw bs => bs

/-- An element of an array that is written, and whether it is valid (not null).  Also an element that is null has bytes
in the buffer of the array. -/
abbrev Cell := Bool × Item

/-! ## Writing -/

/-- `PlainEncoder::encode`, plain.rs 59-155: the bytes that are written for some arrays.  The arrays are given by the
elements of their innermost values (`values().slice(..)`, 138-141).  Booleans that are null are written as false
(`unwrap_or_default`, 83); of other values the buffer is written (103-113), whatever the validity. -/
def encode (t : Ty) (arrs : List (List Cell)) : List Nat :=
  match t.leaf with
  | .bool => packBits (arrs.flatMap (fun a => a.map (fun c => c.1 && c.2.toBit)))
  | _ => arrs.flatMap (fun a => a.flatMap (fun c => c.2.toRaw))

/-! ## Reading -/

/-- `reader.get_range(a..b)`. -/
def read (file : List Nat) (a b : Nat) : Option (List Nat) :=
  if a ≤ b ∧ b ≤ file.length then some (slice file (a, b)) else none

/-- `AsyncIndex<Range<usize>>::get`, plain.rs 449-468, with `get_byte_range` 171-176, `bytes_to_array` 178-221,
`decode_primitive` 236-262, `decode_fixed_size_list` 264-297 and `decode_fixed_size_binary` 299-324: the elements of the
rows `s..e` of a page of `len` rows at `pos`.  The array of a fixed size list has as many rows as its values have
room for. -/
def get (file : List Nat) (pos : Nat) : Ty → Nat → Nat → Nat → Option (List Item)
  | .bool, len, s, e =>
    if e ≤ s then some []
    else if e > len then none
    else do
      let data ← read file (pos + s / 8) (pos + (e + 7) / 8)
      let bits ← bitsOf data (s % 8) (e - s)
      some (bits.map .bit)
  | .prim w, len, s, e =>
    if e ≤ s then some []
    else if e > len then none
    else do
      let data ← read file (pos + s * w) (pos + e * w)
      some ((chunk w (e - s) data).map .raw)
  | .fsb w, len, s, e =>
    if e ≤ s then some []
    else if e * w ≤ s * w then some []
    else if e * w > len * w then none
    else do
      let data ← read file (pos + s * w) (pos + e * w)
      some ((chunk w (data.length / w) data).map .raw)
  | .fsl n t, len, s, e =>
    if e ≤ s then some [] else get file pos t (len * n) (s * n) (e * n)

/-- The rows of an array of type `t`. -/
def rowsOf (t : Ty) (items : List Item) : List (List Item) := chunk t.mult (items.length / t.mult) items

/-- The loop of `make_chunked_requests`, plain.rs 380-394.  `first` is `indices[start]`, `prev` is `indices[i]` and `cur`
the indices from `start` to `i`.  Ranges of positions in `indices` are replaced by the indices there. -/
def chunksFrom (width block first prev : Nat) (cur : List Nat) : List Nat → List (List Nat)
  | [] => [cur]
  | x :: xs =>
    if x = prev + 1 then chunksFrom width block first x (cur ++ [x]) xs
    else if x * width > first * width + block then cur :: chunksFrom width block x x [x] xs
    else chunksFrom width block first x (cur ++ [x]) xs

/-- The loop of `take_boolean`, plain.rs 330-342, where `bits` is `boolean_block_size`. -/
def boolChunksFrom (bits first : Nat) (cur : List Nat) : List Nat → List (List Nat)
  | [] => [cur]
  | x :: xs =>
    if x / bits > first / bits then cur :: boolChunksFrom bits x [x] xs
    else boolChunksFrom bits first (cur ++ [x]) xs

/-- One request of `take`, plain.rs 419-428 and 345-357: the rows from the first to the last index are read, and
`arrow::compute::take` selects.  `sub` fails if an index is less than the first one. -/
def takeChunk (file : List Nat) (pos : Nat) (t : Ty) (len : Nat) (request : List Nat) : Option (List (List Item)) := do
  let start ← request.head?
  let last ← request.getLast?
  let items ← get file pos t len start (last + 1)
  request.mapM (fun i => if i < start then none else (rowsOf t items)[i - start]?)

/-- `take`, plain.rs 403-436, and `take_boolean`, 326-364: the rows at some indices. -/
def take (file : List Nat) (block pos : Nat) (t : Ty) (len : Nat) (indices : List Nat) : Option (List (List Item)) :=
  match indices with
  | [] => some []
  | x :: xs =>
    match t with
    | .bool => do
      let rows ← (boolChunksFrom (block * 8) x [x] xs).mapM (takeChunk file pos t len)
      some rows.flatten
    | t => do
      let width ← t.byteWidth
      let rows ← (chunksFrom width block x x [x] xs).mapM (takeChunk file pos t len)
      some rows.flatten

/-- `ReadBatchParams`, rust/lance-io/src/lib.rs. -/
inductive Params where
  | range (s e : Nat)
  | full
  | to (e : Nat)
  | from (s : Nat)
  | indices (is : List Nat)
deriving DecidableEq, Repr

/-- `AsyncIndex<ReadBatchParams>::get`, plain.rs 498-508 with 470-496: the rows that are read. -/
def readPlain (file : List Nat) (block pos : Nat) (t : Ty) (len : Nat) : Params → Option (List (List Item))
  | .range s e => (get file pos t len s e).map (rowsOf t)
  | .full => (get file pos t len 0 len).map (rowsOf t)
  | .to e => (get file pos t len 0 e).map (rowsOf t)
  | .from s => (get file pos t len s len).map (rowsOf t)
  | .indices is => take file block pos t len is

/-! ## Arrays that can be written -/

/-- Elements of the type. -/
def Fits : Ty → Item → Prop
  | .bool, .bit _ => True
  | .prim w, .raw bs => bs.length = w
  | .fsb w, .raw bs => bs.length = w
  | _, _ => False

/-- The widths and dimensions are positive. -/
def Ty.Pos : Ty → Prop
  | .bool => True
  | .prim w => 0 < w
  | .fsb w => 0 < w
  | .fsl n t => 0 < n ∧ t.Pos

end Verif.Legacy
