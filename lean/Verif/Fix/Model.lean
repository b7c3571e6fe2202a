import Verif.PageTable.Lemmas
/-!
# Repair of duplicate field ids

Some old versions wrote datasets with the same field id in two files of a fragment.  Each commit repairs that (`fix_schema`, `rust/lance/src/io/commit.rs` 340-424).
`none` is a panic.
-/
namespace Verif.Fix
open Verif.PageTable (sortIds maximum?)

/-- A data file: its path (a number) and the fields that the manifest lists of it. -/
abbrev File := Nat × List Int

/-- What `fix_schema` uses of a manifest: the files of each fragment and the ids of the schema in depth first order.  Simplification: `local_schema` (404-406) changes in
the same way and is left out. -/
structure Manifest where
  frags : List (List File)
  schema : List Int
deriving DecidableEq, Repr

/-- `commit.rs` 351-361, for one fragment: ids that were seen before, among those that are not negative. -/
def repeated : List Int → List Int → List Int
  | _, [] => []
  | seen, x :: xs => if decide (0 ≤ x) && seen.contains x then x :: repeated seen xs else repeated (x :: seen) xs

/-- The elements of a list, each once (a `HashSet`). -/
def once : List Int → List Int
  | [] => []
  | x :: xs => if xs.contains x then once xs else x :: once xs

/-- `commit.rs` 350-364 and 370-371: the duplicate ids, sorted. -/
def duplicates (frags : List (List File)) : List Int := sortIds (once (frags.flatMap (fun f => repeated [] (f.flatMap (·.2)))))

/-- `rust/lance-table/src/format/manifest.rs` 255-265. -/
def maxFieldId (m : Manifest) : Int :=
  max ((maximum? m.schema).getD (-1)) ((maximum? (m.frags.flatMap (fun f => f.flatMap (·.2)))).getD (-1))

/-- `commit.rs` 367-375: the new ids of the duplicates. -/
def mapping (m : Manifest) : List (Int × Int) := (duplicates m.frags).zipIdx.map (fun p => (p.1, maxFieldId m + 1 + (p.2 : Int)))

/-- `HashMap::get`. -/
def lookup (m : List (Int × Int)) (x : Int) : Option Int := (m.find? (fun p => p.1 == x)).map (·.2)

/-- `commit.rs` 388-393: the loop over the fields of one file, with the set of ids that are seen. -/
def renameFields (m : Int → Option Int) : List Int → List Int → List Int × List Int
  | seen, [] => ([], seen)
  | seen, x :: xs =>
    match m x with
    | none => (x :: (renameFields m seen xs).1, (renameFields m seen xs).2)
    | some y =>
      if seen.contains x then (x :: (renameFields m seen xs).1, (renameFields m seen xs).2)
      else (y :: (renameFields m (x :: seen) xs).1, (renameFields m (x :: seen) xs).2)

/-- `commit.rs` 382-393: the loop over files, the newest first. -/
def renameRev (m : Int → Option Int) : List Int → List File → List File
  | _, [] => []
  | seen, f :: fs => (f.1, (renameFields m seen f.2).1) :: renameRev m (renameFields m seen f.2).2 fs

/-- `commit.rs` 381-395, for one fragment. -/
def renameFrag (m : Int → Option Int) (files : List File) : List File := (renameRev m [] files.reverse).reverse

/-- `commit.rs` 398-402: the schema with one id changed; `unwrap` panics if the id is not in the schema.  Simplification: the ids of a schema are distinct. -/
def renameOne (schema : List Int) (p : Int × Int) : Option (List Int) :=
  if schema.contains p.1 then some (schema.map (fun x => if x = p.1 then p.2 else x)) else none

/-- `commit.rs` 398-407. -/
def renameSchema : List Int → List (Int × Int) → Option (List Int)
  | schema, [] => some schema
  | schema, p :: ps =>
    match renameOne schema p with
    | none => none
    | some s => renameSchema s ps

/-- `commit.rs` 410-421: files without any field of the schema are dropped. -/
def retain (schema : List Int) (files : List File) : List File := files.filter (fun f => f.2.any schema.contains)

/-- `commit.rs` 343-424. -/
def fixSchema (m : Manifest) : Option Manifest :=
  if m.frags.all (fun f => decide (f.length ≤ 1)) then some m
  else if (duplicates m.frags).isEmpty then some m
  else
    match renameSchema m.schema (mapping m) with
    | none => none
    | some schema => some ⟨m.frags.map (fun f => retain schema (renameFrag (lookup (mapping m)) f)), schema⟩

/-- Where a column is in a fragment: the files that list its id, the oldest first, and the place in each of them (which says the column of the file, see
`rust/lance/src/dataset/fragment.rs` 853-867). -/
def holders (files : List File) (x : Int) : List (Nat × Nat) := files.filterMap (fun f => if f.2.contains x then some (f.1, f.2.idxOf x) else none)

end Verif.Fix
