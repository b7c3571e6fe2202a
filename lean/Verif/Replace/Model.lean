/-!
# Replacing data files

The operation `DataReplacement` (`rust/lance/src/dataset/transaction.rs` 806-909): a version of a dataset with other data files for some fragments.
-/
namespace Verif.Replace

/-- A data file: its path (a number), the fields that it has, the column of the file for each of them, and the version of the format. -/
structure DataFile where
  path : Nat
  fields : List Int
  columns : List Nat
  version : Nat × Nat
deriving DecidableEq, Repr

/-- A fragment: `rows` stands for the physical rows, `deletions` for the deletion file and whatever else the fragment has. -/
structure Frag where
  id : Nat
  files : List DataFile
  rows : Nat
  deletions : Nat
deriving DecidableEq, Repr

/-- An index: its fields and the fragments that it covers. -/
structure Index where
  fields : List Int
  covers : List Nat
deriving DecidableEq, Repr

/-- A version of a dataset.  The schema does not change and is left out. -/
structure Version where
  frags : List Frag
  indices : List Index
deriving DecidableEq, Repr

/-- The errors. -/
inductive Err where
  | differentFields
  | notFound
  | nothingChanged
deriving DecidableEq, Repr

/-- `transaction.rs` 859-866: the path of a file with the same fields and the same version is replaced. -/
def swap (new f : DataFile) : DataFile := if f.fields = new.fields ∧ f.version = new.version then { f with path := new.path } else f

/-- `transaction.rs` 858-868 and 872: no file of the fragment has any of the fields. -/
def uncovered (new : DataFile) (files : List DataFile) : Bool := new.fields.all (fun x => files.all (fun f => !f.fields.contains x))

/-- `transaction.rs` 854-883 and `rust/lance-table/src/format/fragment.rs` 308-318.  Simplification: versions that do not exist, for which `expect` panics, are not
considered. -/
def replaceFrag (new : DataFile) (f : Frag) : Frag :=
  { f with files := f.files.map (swap new) ++ (if uncovered new f.files then [new] else []) }

/-- `transaction.rs` 846-893: the loop over replacements. -/
def replaceAll (frags : List Frag) : List (Nat × DataFile) → Except Err (List Frag)
  | [] => .ok []
  | (id, new) :: rest =>
    match frags.find? (fun f => f.id == id) with
    | none => .error .notFound
    | some f =>
      if replaceFrag new f = f then .error .nothingChanged
      else
        match replaceAll frags rest with
        | .error e => .error e
        | .ok fs => .ok (replaceFrag new f :: fs)

/-- Where a fragment goes in a list sorted by id. -/
def insertFrag (f : Frag) : List Frag → List Frag
  | [] => [f]
  | g :: gs => if f.id ≤ g.id then f :: g :: gs else g :: insertFrag f gs

/-- `sort_by_key(|frag| frag.id)` (`transaction.rs` 913), which is stable. -/
def sortFrags : List Frag → List Frag
  | [] => []
  | f :: fs => insertFrag f (sortFrags fs)

/-- `transaction.rs` 817-823: all new files have the same fields. -/
def sameFields : List (Nat × DataFile) → Bool
  | [] => true
  | p :: ps => ps.all (fun q => q.2.fields == p.2.fields)

/-- `transaction.rs` 806-913: the fragments that do not change come after those that do, and then all are sorted.  Indices stay as they are. -/
def commit (v : Version) (reps : List (Nat × DataFile)) : Except Err Version :=
  if !sameFields reps then .error .differentFields
  else
    match replaceAll v.frags reps with
    | .error e => .error e
    | .ok fs => .ok { v with frags := sortFrags (fs ++ v.frags.filter (fun f => !(reps.map (·.1)).contains f.id)) }

/-! ## Reading -/

/-- What is on disk: the values of each column of each file. -/
abbrev Disk := Nat → Nat → List (Option Nat)

/-- `rust/lance/src/dataset/fragment.rs` 851-867: the values of a field in a file; `none` if the file does not have the field. -/
def DataFile.read (disk : Disk) (f : DataFile) (x : Int) : Option (List (Option Nat)) := (f.columns[f.fields.idxOf x]?).map (disk f.path)

/-- `rust/lance/src/dataset/fragment.rs` 870-899: the values of a field of the schema in a fragment, before deleted rows are taken out: those of the file that has the
field, or nulls if none has it.  Simplification: of several files that have it, the first; valid fragments have one. -/
def Frag.read (disk : Disk) (f : Frag) (x : Int) : Option (List (Option Nat)) :=
  match f.files.find? (fun d => d.fields.contains x) with
  | none => some (List.replicate f.rows none)
  | some d => d.read disk x

end Verif.Replace
