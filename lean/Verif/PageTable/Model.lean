import Verif.Zip.LemmasWords
import Verif.Merge.Partial
/-!
# Page tables of legacy files on disk

A legacy file (formats before 2.0) says in its *page table* where the page of each column and batch is.  The table is a dense array without any header: which entry
is of which column follows of the smallest field id, the largest field id and the number of batches, which the reader gets from elsewhere.

Modelled from `rust/lance-file/src/page_table.rs`, `writer.rs` 587-690, `reader.rs` 111-217, `rust/lance-table/src/format/fragment.rs` 82-92 and
`rust/lance/src/dataset/fragment.rs` 778-807.  A byte is a `Nat` below 256; errors and panics are `none`.  Integer types: field ids are `Int` (i32 in the code),
positions and lengths are `Nat` (usize, stored as i64).
-/
namespace Verif.PageTable
open Verif.Zip (leBytes ofBytes)

/-- `page_table.rs` 17-27. -/
structure Page where
  position : Nat
  length : Nat
deriving DecidableEq, Repr

/-- `page_table.rs` 29-35: the pages by field id and batch.  Simplification: the two nested maps are one list of entries, the newest first; a field is in the map
only if it has a page (`set` is the only way to add one). -/
abbrev Table := List ((Int × Nat) × Page)

/-- `page_table.rs` 158-163. -/
def Table.set (t : Table) (field : Int) (batch : Nat) (p : Page) : Table := ((field, batch), p) :: t

/-- `page_table.rs` 165-169. -/
def Table.get (t : Table) (field : Int) (batch : Nat) : Option Page := (t.find? (fun e => e.1 == (field, batch))).map (·.2)

/-- The smallest of some integers (`Iterator::min`). -/
def minimum? : List Int → Option Int
  | [] => none
  | x :: xs => some (xs.foldl min x)

/-- The largest of some integers (`Iterator::max`). -/
def maximum? : List Int → Option Int
  | [] => none
  | x :: xs => some (xs.foldl max x)

/-- The field ids of `min..=max` (`page_table.rs` 73 and 123). -/
def fieldRange (lo hi : Int) : List Int := (List.range (hi + 1 - lo).toNat).map (fun (k : Nat) => lo + (k : Int))

/-- `page_table.rs` 126-132: the largest batch of any field, plus one. -/
def Table.batches (t : Table) : Nat := t.foldl (fun n e => max n (e.1.2 + 1)) 0

/-- `page_table.rs` 138-143: the two numbers of one entry; an entry without page is written as zeros. -/
def Table.entry (t : Table) (field : Int) (batch : Nat) : List Nat :=
  match t.get field batch with
  | some p => [p.position, p.length]
  | none => [0, 0]

/-- `page_table.rs` 136-146: all numbers of the table. -/
def Table.words (t : Table) (fields : List Int) (batches : Nat) : List Nat :=
  fields.flatMap (fun f => (List.range batches).flatMap (fun b => t.entry f b))

/-- `page_table.rs` 106-155: the bytes of the table.  An error if there are no pages, or pages of a smaller field than `lo`. -/
def Table.write (t : Table) (lo : Int) : Option (List Nat) :=
  match minimum? (t.map (·.1.1)), maximum? (t.map (·.1.1)) with
  | some observed, some hi =>
    if lo > observed then none else some ((t.words (fieldRange lo hi) t.batches).flatMap (leBytes 8))
  | _, _ => none

/-- The `k`-th number of an array of 64 bit integers. -/
def word (bytes : List Nat) (k : Nat) : Nat := ofBytes ((bytes.drop (8 * k)).take 8)

/-- `page_table.rs` 83-94: the entry at an index. -/
def pageAt (bytes : List Nat) (idx : Nat) : Page := ⟨word bytes (idx * 2), word bytes (idx * 2 + 1)⟩

/-- `page_table.rs` 77-97: one entry for each field of the range and each batch. -/
def entries (bytes : List Nat) (lo : Int) (columns batches : Nat) : Table :=
  (List.range columns).flatMap (fun (c : Nat) => (List.range batches).map (fun (b : Nat) => ((lo + (c : Int), b), pageAt bytes (c * batches + b))))

/-- `page_table.rs` 55-97: the table that is read at a position.  An error if the range of fields is empty or if the file ends before the table does.  The indices
are i32 (82-84): beyond 2^31 they overflow, a panic. -/
def load (file : List Nat) (position : Nat) (lo hi : Int) (batches : Nat) : Option Table :=
  if hi < lo then none
  else
    let columns := (hi + 1 - lo).toNat
    let length := columns * batches * 2
    if length > 2 ^ 31 then none
    else if position + 8 * length > file.length then none
    else some (entries ((file.drop position).take (8 * length)) lo columns batches)

/-! ## Writing a file -/

/-- A field of a schema, in depth first order: its id, and whether the writer writes pages of it (`writer.rs` 280-584: all but structs). -/
structure Fld where
  id : Int
  paged : Bool
deriving DecidableEq, Repr

/-- `writer.rs` 164-224: the table after one batch; `pages` says where the encoders put the pages (they are not modelled here, see `Verif.Legacy`). -/
def addBatch (schema : List Fld) (t : Table) (batch : Nat) (pages : Int → Page) : Table :=
  (schema.filter (·.paged)).foldl (fun t f => t.set f.id batch (pages f.id)) t

/-- `writer.rs` 164-224, over all batches that are written: `batch_id` counts them, and so does `metadata.batch_offsets`. -/
def addBatches (schema : List Fld) : Table → Nat → List (Int → Page) → Table
  | t, _, [] => t
  | t, batch, pages :: rest => addBatches schema (addBatch schema t batch pages) (batch + 1) rest

/-- `writer.rs` 677-684: the bytes of the page table of a file: the first field is the smallest of the schema (a panic if there is none). -/
def writeTable (schema : List Fld) (batches : List (Int → Page)) : Option (List Nat) :=
  match minimum? (schema.map (·.id)) with
  | none => none
  | some lo => (addBatches schema [] 0 batches).write lo

/-- `writer.rs` 597-610 and `reader.rs` 196-206: the table of the pages of statistics is of one batch and starts at field 0. -/
def writeStatsTable (schema : List Fld) (pages : Int → Page) : Option (List Nat) := (addBatch schema [] 0 pages).write 0

/-- `reader.rs` 196-206: the largest of the field ids that the metadata lists. -/
def loadStats (file : List Nat) (position : Nat) (leafIds : List Int) : Option Table :=
  match maximum? leafIds with
  | none => none
  | some hi => load file position 0 hi 1

/-! ## The data file of a fragment -/

/-- Where a number goes in a sorted list. -/
def insertSorted (x : Int) : List Int → List Int
  | [] => [x]
  | y :: ys => if x ≤ y then x :: y :: ys else y :: insertSorted x ys

/-- `Vec::sort`. -/
def sortIds : List Int → List Int
  | [] => []
  | x :: xs => insertSorted x (sortIds xs)

/-- `rust/lance-table/src/format/fragment.rs` 82-92: the fields that the manifest lists of a new legacy file. -/
def newFields (schema : List Fld) : List Int := sortIds (schema.map (·.id))

/-- `rust/lance/src/dataset/fragment.rs` 778-780: the cast to u32 and back to i32 (804) gives the same number. -/
def fieldIdOffset (fields : List Int) : Int := fields.head?.getD 0

/-- `rust/lance/src/dataset/fragment.rs` 795-808 and `reader.rs` 128-141: the page table of a data file, with the fields that the manifest lists.  `cache` is what
the session has of this path; it is keyed by the path only (`reader.rs` 129). -/
def openTable (cache : Option Table) (file : List Nat) (position batches : Nat) (fields : List Int) : Option Table :=
  match maximum? fields with
  | none => none
  | some hi =>
    match cache with
    | some t => some t
    | none => load file position (fieldIdOffset fields) hi batches

/-- `rust/lance/src/dataset/write/merge_insert.rs` 978-986 (`Verif.Merge.tombstone`), for one file: the fields that a newer file has are replaced. -/
def replaced (newer : List Int) (fields : List Int) : List Int := fields.map (fun x => if newer.contains x then -2 else x)

end Verif.PageTable
