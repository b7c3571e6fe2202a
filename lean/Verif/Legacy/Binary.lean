import Verif.Legacy.Model
/-! Model of the pages of legacy (version 0.1) files that hold strings and byte strings:
`rust/lance-io/src/encodings/binary.rs`.

The check of `build` that the values of a string array are UTF-8 is not modelled (the bytes are those of strings that were
written).  Both an error and a panic are `none`. -/
namespace Verif.Legacy
open Verif.ListCol (slice)
open Verif.RowIds.Serde (leBytes fromLe)

/-- `GenericByteArray`: row `i` has the bytes from `offsets[i]` to `offsets[i + 1]` of `data`, also if it is null. -/
structure BArr where
  offsets : List Nat
  valid : List Bool
  data : List Nat
deriving DecidableEq, Repr

/-- The elements between offsets that follow each other. -/
def pieces {α : Type} (data : List α) : List Nat → List (List α)
  | a :: b :: r => slice data (a, b) :: pieces data (b :: r)
  | _ => []

/-- The rows of an array. -/
def BArr.rows (a : BArr) : List (Option (List Nat)) :=
  List.zipWith (fun v b => if v then some b else none) a.valid (pieces a.data a.offsets)

/-! ## Writing -/

/-- The positions that are added for the offsets of each array, binary.rs 55-79, where `last` is `last_offset`.  The same
loop is in `write_list_array`, rust/lance-file/src/writer.rs 500-520. -/
def positionsFrom (last : Nat) : List (List Nat) → List Nat
  | [] => []
  | os :: rest =>
    let ps := (os.drop 1).map (fun b => b - os.headD 0 + last)
    ps ++ positionsFrom (ps.getLast?.getD last) rest

/-- The bytes of all values, binary.rs 62-71. -/
def dataOf (arrs : List BArr) : List Nat := arrs.flatMap (fun a => slice a.data (a.offsets.headD 0, a.offsets.getLastD 0))

/-- `encode_typed_arr`, binary.rs 48-88: what is written if `tell` bytes are in the file already.  The position that it
returns is `tell` plus the length of the data. -/
def encodeBin (tell : Nat) (arrs : List BArr) : List Nat :=
  dataOf arrs ++ (tell :: positionsFrom tell (arrs.map (·.offsets))).flatMap (leBytes 8)

/-! ## Reading -/

/-- The positions `s..e` of a page of `len` rows, of which there is one more than rows: a `PlainDecoder` of `i64`,
binary.rs 153-162 and 450-458.  Positions are not negative. -/
def positionsAt (file : List Nat) (pos len s e : Nat) : Option (List Nat) :=
  (get file pos (.prim 8) (len + 1) s e).map (fun items => items.map (fun x => fromLe x.toRaw))

/-- `cast` of an `i64` to `i32` for the types with offsets of 32 bits: a value that is too large becomes null, and the
buffer has 0. -/
def castOffset (large : Bool) (x : Nat) : Nat := if large || x < 2 ^ 31 then x else 0

/-- The checks of `ArrayDataBuilder::build`: offsets do not decrease and are within the data. -/
def offsetsOk (n : Nat) : List Nat → Bool
  | a :: b :: r => decide (a ≤ b) && offsetsOk n (b :: r)
  | [a] => decide (a ≤ n)
  | [] => false

/-- Which rows are valid, `count_nulls`, binary.rs 164-183: those that are not empty. -/
def notEmpty : List Nat → List Bool
  | a :: b :: r => decide (a ≠ b) :: notEmpty (b :: r)
  | _ => []

/-- `ArrayDataBuilder .. build`, binary.rs 215-231 and 351-373. -/
def build (nullable : Bool) (offsets nullsFrom : List Nat) (data : List Nat) : Option BArr :=
  if offsetsOk data.length offsets then
    some ⟨offsets, if nullable then notEmpty nullsFrom else List.replicate (offsets.length - 1) true, data⟩
  else none

/-- The bytes from one position to another, binary.rs 208-212. -/
def readData (file : List Nat) (start last : Nat) : Option (List Nat) := if start ≥ last then some [] else read file start last

/-- `get_range`, binary.rs 191-232. -/
def getRange (file : List Nat) (large nullable : Bool) (positions : List Nat) (a b : Nat) : Option BArr :=
  if positions.length < b then none
  else do
    let start ← positions[a]?
    let last ← positions[b]?
    let sl := slice positions (a, b + 1)
    let data ← readData file start last
    build nullable (sl.map (fun p => castOffset large (p - start))) sl data

/-- `AsyncIndex<Range<usize>>::get`, binary.rs 446-463. -/
def getBin (file : List Nat) (pos : Nat) (large nullable : Bool) (len s e : Nat) : Option BArr := do
  let positions ← positionsAt file pos len s (e + 1)
  getRange file large nullable positions 0 (e - s)

/-- The loop of `plan_take_chunks`, binary.rs 257-281, at position `i` of the indices.  `startIdx` is a position in the
indices, `lastP1` is `last_idx + 1`, and `cur` are the indices from `startIdx` on. -/
def planFrom (positions : List Nat) (minIo : Nat) (startIdx i lastP1 : Nat) (contiguous : Bool) (cur : List Nat) :
    List Nat → List (List Nat × Bool)
  | [] => [(cur, contiguous)]
  | x :: xs =>
    let cc := x == startIdx || x == lastP1
    if !cc && decide (positions.getD x 0 - positions.getD (cur.headD x) 0 > minIo) then
      (cur, contiguous) :: planFrom positions minIo i (i + 1) (x + 1) true [x] xs
    else planFrom positions minIo startIdx (i + 1) (x + 1) (contiguous && cc) (cur ++ [x]) xs

/-- What is added to the buffer and the lengths for a chunk, binary.rs 318-349. -/
def takeBinChunk (file : List Nat) (large nullable : Bool) (positions : List Nat) (c : List Nat × Bool) :
    Option (List Nat × List Nat) := do
  let first ← c.1.head?
  let last ← c.1.getLast?
  let arr ← getRange file large nullable positions first (last + 1)
  let values ← c.1.mapM (fun i => (pieces arr.data arr.offsets)[i - first]?)
  some (if c.2 then arr.data else values.flatten, values.map List.length)

/-- Offsets from lengths, binary.rs 343-347. -/
def sums (c : Nat) : List Nat → List Nat
  | [] => [c]
  | l :: ls => c :: sums (c + l) ls

/-- `take`, binary.rs 300-375, with `min_io_size` as a parameter (it is 64 KB, 310).  Offsets of 32 bits that
overflow are rejected when the array is built. -/
def takeBin (file : List Nat) (pos minIo : Nat) (large nullable : Bool) (len : Nat) (indices : List Nat) : Option BArr :=
  match indices with
  | [] => some ⟨[0], [], []⟩
  | x :: xs => do
    let last ← (x :: xs).getLast?
    let positions ← positionsAt file pos len x (last + 2)
    let rel ← (x :: xs).mapM (fun i => if i < x ∨ positions.length ≤ i - x + 1 then none else some (i - x))
    let parts ← (planFrom positions minIo 0 0 0 true [] rel).mapM (takeBinChunk file large nullable positions)
    let offsets := sums 0 (parts.flatMap (·.2))
    if !large && decide (2 ^ 31 ≤ offsets.getLastD 0) then none
    else build nullable offsets offsets (parts.flatMap (·.1))

/-- `AsyncIndex<ReadBatchParams>::get`, binary.rs 430-444 with 402-428. -/
def readBin (file : List Nat) (pos minIo : Nat) (large nullable : Bool) (len : Nat) : Params → Option BArr
  | .range s e => getBin file pos large nullable len s e
  | .full => getBin file pos large nullable len 0 len
  | .to e => getBin file pos large nullable len 0 e
  | .from s => getBin file pos large nullable len s len
  | .indices is => takeBin file pos minIo large nullable len is

end Verif.Legacy
