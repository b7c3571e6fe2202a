import Verif.Legacy.Binary
/-! Model of columns of legacy (version 0.1) files, of all types, and of the file: `write_array` and `write` of
`rust/lance-file/src/writer.rs`, `read_array`, `read_range` and `take` of `rust/lance-file/src/reader.rs`,
`range_to_batches` and `group_indices_to_batches` of `rust/lance-file/src/format/metadata.rs`, and
`rust/lance-io/src/encodings/dictionary.rs`.

Not modelled: the footer, schema and metadata of the file and their encoding, statistics, the concurrency of reads,
structs without fields.  Arrays that are read are represented by the rows that they have.  Both an error and a panic are
`none`. -/
namespace Verif.Legacy
open Verif.ListCol (slice)
open Verif.RowIds.Serde (leBytes fromLe)

/-- The value of a row.  The fields of a struct are a pair of the first field and the others; a list is built of `nil` and
`cons`. -/
inductive Val where
  | null
  | items (xs : List Item)
  | bytes (bs : List Nat)
  | pair (a b : Val)
  | nil
  | cons (a b : Val)
deriving DecidableEq, Repr, Inhabited

/-- The value of a row of a list column. -/
def Val.ofList : List Val → Val
  | [] => .nil
  | v :: vs => .cons v (Val.ofList vs)

/-- A row of a string column. -/
def Val.ofBytes : Option (List Nat) → Val
  | none => .null
  | some bs => .bytes bs

/-- The type of a column, with the ids of the fields that have pages.  `pair` are the fields of a struct (or the columns of
the file): the first one and the others.  A dictionary has the values that are in the schema (`field.dictionary`). -/
inductive CTy where
  | null (id : Nat)
  | fixed (id : Nat) (t : Ty)
  | bytes (id : Nat) (large nullable : Bool)
  | dict (id width : Nat) (values : List Val)
  | pair (a b : CTy)
  | struct (fields : CTy)
  | list (id : Nat) (large : Bool) (item : CTy)
deriving DecidableEq, Repr

/-- An arrow array.  A row of fixed width has a validity and elements (one, except for fixed size lists). -/
inductive Arr where
  | null (n : Nat)
  | fixed (rows : List (Bool × List Cell))
  | bytes (b : BArr)
  | dict (keys : List Cell) (values : List Val)
  | pair (a b : Arr)
  | struct (valid : List Bool) (fields : Arr)
  | list (offsets : List Nat) (valid : List Bool) (values : Arr)
deriving Repr

/-- The number of rows. -/
def Arr.length : Arr → Nat
  | .null n => n
  | .fixed rows => rows.length
  | .bytes b => b.valid.length
  | .dict keys _ => keys.length
  | .pair a _ => a.length
  | .struct _ f => f.length
  | .list _ valid _ => valid.length

/-- `Array::slice`, for the rows `s..e`. -/
def Arr.slice (s e : Nat) : Arr → Arr
  | .null _ => .null (e - s)
  | .fixed rows => .fixed (Verif.ListCol.slice rows (s, e))
  | .bytes b => .bytes ⟨Verif.ListCol.slice b.offsets (s, e + 1), Verif.ListCol.slice b.valid (s, e), b.data⟩
  | .dict keys values => .dict (Verif.ListCol.slice keys (s, e)) values
  | .pair a b => .pair (a.slice s e) (b.slice s e)
  | .struct valid f => .struct (Verif.ListCol.slice valid (s, e)) (f.slice s e)
  | .list offsets valid values => .list (Verif.ListCol.slice offsets (s, e + 1)) (Verif.ListCol.slice valid (s, e)) values

/-! The downcasts of the writer; an array of another type, for which the writer panics, is excluded by the theorems. -/

/-- The elements of an array of fixed width. -/
def Arr.cells : Arr → List Cell
  | .fixed rows => rows.flatMap (·.2)
  | _ => []

/-- A string array. -/
def Arr.asBytes : Arr → BArr
  | .bytes b => b
  | _ => ⟨[0], [], []⟩

/-- The keys of a dictionary array. -/
def Arr.keys : Arr → List Cell
  | .dict keys _ => keys
  | _ => []

/-- The first field. -/
def Arr.first : Arr → Arr
  | .pair a _ => a
  | a => a

/-- The other fields. -/
def Arr.rest : Arr → Arr
  | .pair _ b => b
  | a => a

/-- The fields of a struct array. -/
def Arr.fields : Arr → Arr
  | .struct _ f => f
  | a => a

/-- `value_offsets()` of a list array. -/
def Arr.offsets : Arr → List Nat
  | .list os _ _ => os
  | _ => [0]

/-- `values()` of a list array. -/
def Arr.values : Arr → Arr
  | .list _ _ v => v
  | a => a

/-! ## Writing -/

/-- A file that is written: the bytes, and the page table, which has position and length for a field and a batch.
`set` replaces an entry: the first one in the list counts. -/
structure File where
  bytes : List Nat
  table : List ((Nat × Nat) × (Nat × Nat))
deriving DecidableEq, Repr

/-- `page_table.get`. -/
def File.page (f : File) (id batch : Nat) : Option (Nat × Nat) := (f.table.find? (fun x => x.1 == (id, batch))).map (·.2)

/-- The bytes `bs` are written and the page of the field is at `at` and has `len` rows. -/
def File.add (f : File) (bs : List Nat) (id batch pos len : Nat) : File := ⟨f.bytes ++ bs, ((id, batch), (pos, len)) :: f.table⟩

/-- The number of rows of some arrays. -/
def total (arrs : List Arr) : Nat := (arrs.map Arr.length).sum

/-- The items of a list array that are in its rows, writer.rs 503-512. -/
def Arr.items (a : Arr) : Arr := a.values.slice (a.offsets.headD 0) (a.offsets.getLastD 0)

/-- The width of the offsets of a list column. -/
def offWidth (large : Bool) : Nat := if large then 8 else 4

/-- `write_array`, writer.rs 286-582, for the arrays of a batch. -/
def write (batch : Nat) : CTy → List Arr → File → File
  | .null id, arrs, f => f.add [] id batch f.bytes.length (total arrs)
  | .fixed id t, arrs, f => f.add (encode t (arrs.map Arr.cells)) id batch f.bytes.length (total arrs)
  | .bytes id _ _, arrs, f =>
    f.add (encodeBin f.bytes.length (arrs.map Arr.asBytes)) id batch (f.bytes.length + (dataOf (arrs.map Arr.asBytes)).length) (total arrs)
  | .dict id w _, arrs, f => f.add (encode (.prim w) (arrs.map Arr.keys)) id batch f.bytes.length (total arrs)
  | .pair a b, arrs, f => write batch b (arrs.map Arr.rest) (write batch a (arrs.map Arr.first) f)
  | .struct t, arrs, f => write batch t (arrs.map Arr.fields) f
  | .list id large t, arrs, f =>
    let positions := 0 :: positionsFrom 0 (arrs.map Arr.offsets)
    write batch t (arrs.map Arr.items)
      (f.add (encode (.prim (offWidth large)) [positions.map (fun p => (true, .raw (leBytes (offWidth large) p)))])
        id batch f.bytes.length positions.length)

/-! ## Reading -/

/-- The number of rows that a request gives for a page of `n` rows, `read_null_array`, reader.rs 519-571. -/
def nullRows (n : Nat) : Params → Option Nat
  | .indices is => if is.all (fun i => decide (i < n)) then some is.length else none
  | .range s e => if e > n then none else some (e - s)
  | .full => some n
  | .to e => if e > n then none else some e
  | .from s => some (n - s)

/-- The request for the positions of a list column, reader.rs 701-708.  There is no first index if there are none. -/
def positionParams : Params → Option Params
  | .range s e => some (.range s (e + 1))
  | .to e => some (.to (e + 1))
  | .indices is => do
    let first ← is.head?
    let last ← is.getLast?
    some (.range first (last + 2))
  | p => some p

/-- Lists from the offsets and the values, `try_new_generic_list_array`. -/
def toLists (offsets : List Nat) (values : List Val) : Option (List Val) :=
  if offsetsOk values.length offsets then some ((pieces values offsets).map Val.ofList) else none

/-- The request for the values of a list column, reader.rs 722-738, except for indices. -/
def valueParams (positions : List Nat) : Params → Option Params
  | .range s e => do
    let a ← positions[0]?
    let b ← positions[e - s]?
    some (.range a b)
  | .to e => do
    let b ← positions[e]?
    some (.to b)
  | .from _ => do
    let a ← positions[0]?
    some (.from a)
  | .full => do
    let a ← positions[0]?
    let b ← positions[positions.length - 1]?
    some (.range a b)
  | .indices _ => none

/-- `take_list_array`, reader.rs 641-687: the values of each list are read on their own, by `sub`. -/
def takeLists (sub : Params → Option (List Val)) (positions : List Nat) (is : List Nat) : Option (List Val) := do
  let first ← is.head?
  let ranges ← is.mapM (fun i => do
    let a ← positions[i - first]?
    let b ← positions[i - first + 1]?
    some (a, b))
  let parts ← ranges.mapM (fun r => sub (.range r.1 r.2))
  toLists (sums 0 (ranges.map (fun r => r.2 - r.1))) parts.flatten

/-- `read_list_array`, reader.rs 690-759, where `sub` reads the items. -/
def readList (sub : Params → Option (List Val)) (readPos : Params → Option (List Nat)) (p : Params) : Option (List Val) := do
  let pp ← positionParams p
  let positions ← readPos pp
  match p with
  | .indices is => takeLists sub positions is
  | p => do
    let vp ← valueParams positions p
    let values ← sub vp
    let first ← positions[0]?
    toLists (positions.map (· - first)) values

/-- `read_array`, reader.rs 449-485 and 501-640, with `decode_impl` of dictionary.rs. -/
def readCol (f : File) (block minIo batch : Nat) : CTy → Params → Option (List Val)
  | .null id, p => do
    let page ← f.page id batch
    let n ← nullRows page.2 p
    some (List.replicate n .null)
  | .fixed id t, p => do
    let page ← f.page id batch
    let rows ← readPlain f.bytes block page.1 t page.2 p
    some (rows.map .items)
  | .bytes id large nullable, p => do
    let page ← f.page id batch
    let arr ← readBin f.bytes page.1 minIo large nullable page.2 p
    some (arr.rows.map Val.ofBytes)
  | .dict id w values, p => do
    let page ← f.page id batch
    let keys ← readPlain f.bytes block page.1 (.prim w) page.2 p
    keys.mapM (fun k => values[fromLe (k.flatMap Item.toRaw)]?)
  | .pair a b, p => do
    let xs ← readCol f block minIo batch a p
    let ys ← readCol f block minIo batch b p
    if xs.length = ys.length then some (List.zipWith .pair xs ys) else none
  | .struct t, p => readCol f block minIo batch t p
  | .list id large t, p =>
    match f.page id batch with
    | none => none
    | some page =>
      readList (readCol f block minIo batch t)
        (fun pp => (readPlain f.bytes block page.1 (.prim (offWidth large)) page.2 pp).map
          (fun rows => rows.map (fun r => fromLe (r.flatMap Item.toRaw)))) p

end Verif.Legacy
