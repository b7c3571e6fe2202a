/-!
# `Dataset.validate`

Modelled from `rust/lance/src/dataset.rs` 1257-1346, `rust/lance/src/dataset/fragment.rs` 1026-1163, `rust/lance-table/src/format/fragment.rs` 102-121,
`rust/lance/src/io/commit.rs` 534-560 (`detect_overlapping_fragments`), and the parts of operations that decide what a manifest lists of files: appends, deletes,
`add_columns`, `drop_columns` (`transaction.rs` 782-799) and `merge_insert` of some of the columns (`merge_insert.rs` 700-770 and 975-987).
-/
namespace Verif.Validate

/-- A data file: what the manifest lists of it (the fields, the number of `column_indices`, whether the format is before 2.0), and the number of its rows. -/
structure DataFile where
  fields : List Int
  columns : Nat
  legacy : Bool
  rows : Nat
deriving DecidableEq, Repr

/-- A deletion file: the number of deleted rows in the manifest, and the offsets that the file has. -/
structure DelFile where
  declared : Option Nat
  offsets : List Nat
deriving DecidableEq, Repr

/-- A fragment. -/
structure Frag where
  id : Nat
  files : List DataFile
  physicalRows : Option Nat
  deletion : Option DelFile
deriving DecidableEq, Repr

/-- An index; names and uuids are numbers. -/
structure Index where
  uuid : Nat
  name : Nat
  bitmap : Option (List Nat)
deriving DecidableEq, Repr

/-- A version of a dataset; of the schema only the ids. -/
structure Dataset where
  frags : List Frag
  schema : List Int
  indices : List Index
deriving DecidableEq, Repr

/-- The errors. -/
inductive Err where
  | duplicateFragment
  | unsortedFragments
  | notIncreasing (field : Int)
  | duplicateField (field : Int)
  | panic
  | mixed
  | unsortedLegacy
  | columnCount
  | noCommonFields
  | fileLength
  | physicalRows
  | deletedCount
  | deletedOffset
  | duplicateIndex
  | overlappingIndices
deriving DecidableEq, Repr

/-- The first error of some checks (the `?` after each of them). -/
def firstErr : List (Option Err) → Option Err
  | [] => none
  | none :: l => firstErr l
  | some e :: _ => some e

/-- An error unless a condition holds. -/
def require (e : Err) (ok : Bool) : Option Err := if ok then none else some e

/-- `fragment.rs` 1027-1057: the loop over the fields of all files; `last` is -1 and never changes.  Simplification: the loop over files and the one over their
fields are one loop. -/
def scanFields (seen : List Int) : List Int → Option Err
  | [] => none
  | x :: xs =>
    if x ≤ -1 then some (.notIncreasing x)
    else if seen.contains x then some (.duplicateField x)
    else scanFields (x :: seen) xs

/-- `fragment.rs` 1059-1069: some files are legacy files and some are not.  If there are no files, `any` is not `all`, and `files[0]` panics. -/
def checkMixed (files : List DataFile) : Option Err :=
  if files.any (·.legacy) == files.all (·.legacy) then none
  else if files.isEmpty then some .panic else some .mixed

/-- `windows(2).all(|w| w[0] < w[1])`. -/
def increasing : List Int → Bool
  | x :: y :: l => decide (x < y) && increasing (y :: l)
  | _ => true

/-- `lance-table/src/format/fragment.rs` 102-121. -/
def DataFile.check (f : DataFile) : Option Err :=
  if f.legacy then require .unsortedLegacy (increasing f.fields)
  else require .columnCount (f.fields.length == f.columns)

/-- `fragment.rs` 1075-1087 with `open_reader` (782-850): there is no reader if the file has no field of the schema.  Simplification: opening the file itself does not
fail here. -/
def checkCommon (schema : List Int) (f : DataFile) : Option Err := require .noCommonFields (f.fields.any schema.contains)

/-- `fragment.rs` 1099: the length of the first file. -/
def Frag.expected (f : Frag) : Nat := (f.files.head?.map (·.rows)).getD 0

/-- `fragment.rs` 1126-1160: offsets are compared to the length as `u32`. -/
def checkDeletion (expected : Nat) : Option DelFile → Option Err
  | none => none
  | some d => firstErr [
      match d.declared with
      | none => none
      | some n => require .deletedCount (n == d.offsets.length),
      require .deletedOffset (d.offsets.all (fun o => decide (o < expected % 2 ^ 32)))]

/-- `fragment.rs` 1026-1163. -/
def Frag.validate (schema : List Int) (f : Frag) : Option Err :=
  firstErr ([scanFields [] (f.files.flatMap (·.fields)), checkMixed f.files] ++ f.files.map DataFile.check ++ f.files.map (checkCommon schema) ++
    f.files.map (fun x => require .fileLength (x.rows == f.expected)) ++
    [match f.physicalRows with
      | none => none
      | some n => require .physicalRows (n == f.expected),
     checkDeletion f.expected f.deletion])

/-- `dataset.rs` 1259-1279: an id that occurs more than once. -/
def distinct : List Nat → Bool
  | [] => true
  | x :: xs => !xs.contains x && distinct xs

/-- `dataset.rs` 1282-1299. -/
def sortedFrom (prev : Nat) : List Nat → Bool
  | [] => true
  | x :: xs => if x < prev then false else sortedFrom x xs

/-- `commit.rs` 540-550: the fragments of the indices of one name, one after the other. -/
def covered (name : Nat) (indices : List Index) : List Nat := (indices.filter (fun i => i.name == name)).flatMap (fun i => i.bitmap.getD [])

/-- `commit.rs` 534-560. -/
def noOverlap (indices : List Index) : Bool := (indices.map (·.name)).all (fun name => distinct (covered name indices))

/-- `dataset.rs` 1257-1346; `none` is `Ok(())`.  Fragments are validated concurrently: which of several errors is returned is not determined there. -/
def Dataset.validate (d : Dataset) : Option Err :=
  firstErr ([require .duplicateFragment (distinct (d.frags.map (·.id))), require .unsortedFragments (sortedFrom 0 (d.frags.map (·.id)))] ++
    d.frags.map (Frag.validate d.schema) ++
    [require .duplicateIndex (distinct (d.indices.map (·.uuid))), require .overlappingIndices (noOverlap d.indices)])

/-! ## Operations -/

/-- What operations do to the lists of files. -/
inductive Op where
  /-- `append` or `overwrite` of a fragment with one file. -/
  | append (f : Frag)
  /-- `delete`: a new deletion file of a fragment. -/
  | delete (id : Nat) (d : DelFile)
  /-- `add_columns`: a new file for each fragment, whose number of rows is that of the fragment. -/
  | addColumns (fields : List Int) (columns : Nat) (legacy : Bool)
  /-- `add_columns` of all-null columns: only the schema changes. -/
  | addNulls (fields : List Int)
  /-- `drop_columns`: only the schema changes, and files without any field of it are dropped. -/
  | dropColumns (remaining : List Int)
  /-- `merge_insert` of some columns: a fragment has a new file, and the fields of older files that are in it become -2. -/
  | replaceColumns (id : Nat) (fields : List Int) (columns : Nat) (legacy : Bool)
deriving DecidableEq, Repr

/-- `merge_insert.rs` 978-986. -/
def tombstone (newer : List Int) (f : DataFile) : DataFile := { f with fields := f.fields.map (fun x => if newer.contains x then -2 else x) }

/-- The manifest after an operation. -/
def step (d : Dataset) : Op → Dataset
  | .append f => { d with frags := d.frags ++ [f] }
  | .delete id del => { d with frags := d.frags.map (fun f => if f.id = id then { f with deletion := some del } else f) }
  | .addColumns fields columns legacy =>
    { d with frags := d.frags.map (fun f => { f with files := f.files ++ [⟨fields, columns, legacy, f.expected⟩] }), schema := d.schema ++ fields }
  | .addNulls fields => { d with schema := d.schema ++ fields }
  | .dropColumns remaining =>
    { d with frags := d.frags.map (fun f => { f with files := f.files.filter (fun x => x.fields.any remaining.contains) }), schema := remaining }
  | .replaceColumns id fields columns legacy =>
    { d with frags := d.frags.map (fun f => if f.id = id then { f with files := f.files.map (tombstone fields) ++ [⟨fields, columns, legacy, f.expected⟩] } else f) }

end Verif.Validate
