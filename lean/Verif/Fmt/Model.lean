/-!
# Storage versions of files and datasets

Models `LanceFileVersion` (`rust/lance-encoding/src/version.rs` 14-105), `Fragment::try_infer_version`
(`rust/lance-table/src/format/fragment.rs` 331-370), `DataStorageFormat` (manifest.rs 349-373), the part of
`build_manifest` that sets the format (transaction.rs 548-569, 915-950), `check_storage_version` (io/commit.rs
298-338), the check of `CommitBuilder` (write/commit.rs 250-268), and which version `InsertBuilder`
(write/insert.rs 361-379, write.rs 323-372, 504-538) and `FragmentCreateBuilder` (fragment/write.rs 77-190) write.  Everything
else in a manifest is left out: the list of the versions of the files of each fragment after a commit is any
list.  Errors are `none`.
-/
namespace Verif.Fmt

/-- version.rs:16-28. -/
inductive V where
  | legacy | v20 | stable | v21 | next
  deriving DecidableEq, Repr

/-- version.rs:32-38 `resolve`. -/
def V.resolve : V → V
  | .stable => .v20
  | .next => .v21
  | v => v

/-- version.rs:40-53 `try_from_major_minor`. -/
def ofNumbers : Nat × Nat → Option V
  | (0, 0) => some .legacy
  | (0, 1) => some .legacy
  | (0, 2) => some .legacy
  | (0, 3) => some .v20
  | (2, 0) => some .v20
  | (2, 1) => some .v21
  | _ => none

/-- version.rs:55-63 `to_numbers`. -/
def V.numbers (v : V) : Nat × Nat :=
  match v.resolve with
  | .legacy => (0, 2)
  | .v20 => (2, 0)
  | .stable => (2, 0)
  | .v21 => (2, 1)
  | .next => (2, 1)

/-- version.rs:66-80 `Display`. -/
def V.text : V → String
  | .legacy => "0.1"
  | .v20 => "2.0"
  | .v21 => "2.1"
  | .stable => "stable"
  | .next => "next"

/-- version.rs:82-103 `FromStr`, of a text in lower case. -/
def parse (s : String) : Option V :=
  if s = "0.1" then some .legacy
  else if s = "2.0" then some .v20
  else if s = "2.1" then some .v21
  else if s = "stable" then some .stable
  else if s = "legacy" then some .legacy
  else if s = "0.3" then some .v20
  else none

/-- Comparison derived from the order of the constructors (version.rs:15). -/
def V.rank : V → Nat
  | .legacy => 0
  | .v20 => 1
  | .stable => 2
  | .v21 => 3
  | .next => 4

/-- A data file: its major and minor version.  A fragment is the list of its files. -/
abbrev File := Nat × Nat

/-- fragment.rs:98-100 `is_legacy_file`. -/
def isLegacyFile (f : File) : Bool := f.1 == 0 && decide (f.2 < 3)

/-- fragment.rs:335-369 `try_infer_version`: `none` is an error, `some none` no file. -/
def infer (frags : List (List File)) : Option (Option V) :=
  match (frags.find? (fun f => !f.isEmpty)).bind List.head? with
  | none => some none
  | some sample =>
    match ofNumbers sample with
    | none => none
    | some v => if frags.all (fun f => f.all (fun x => ofNumbers x == some v)) then some (some v) else none

/-- The part of a manifest that is of interest. -/
structure Man where
  fmt : String
  frags : List (List File)
  deriving DecidableEq, Repr

/-- manifest.rs:357-362 `DataStorageFormat::new`. -/
def newFmt (v : V) : String := v.resolve.text

/-- transaction.rs:548-569 `data_storage_format_from_files`. -/
def fmtFromFiles (frags : List (List File)) (asked : Option V) : Option String :=
  match infer frags with
  | none => none
  | some (some v) => if asked.all (· == v) then some (newFmt v) else none
  | some none => some ((asked.map newFmt).getD (newFmt .v20))

/-- transaction.rs:922-950. -/
def buildWith (cur : Option Man) (isOverwrite : Bool) (frags : List (List File)) (asked : Option V) : Option Man :=
  match cur with
  | none => (fmtFromFiles frags asked).map (fun f => ⟨f, frags⟩)
  | some m => match asked with
    | some v => if isOverwrite then some ⟨newFmt v, frags⟩ else some ⟨m.fmt, frags⟩
    | none => some ⟨m.fmt, frags⟩

/-- transaction.rs:915-950, with `config.storage_format` made by `DataStorageFormat::new`
(write/commit.rs:272); `use_legacy_format` is never set. -/
def build (cur : Option Man) (isOverwrite : Bool) (frags : List (List File)) (asked : Option V) : Option Man :=
  match asked with
  | none => buildWith cur isOverwrite frags none
  | some v => (parse (newFmt v)).bind (fun w => buildWith cur isOverwrite frags (some w))

/-- io/commit.rs:298-338 `check_storage_version`. -/
def check (m : Man) : Option Man :=
  match parse m.fmt with
  | none => none
  | some v =>
    match infer m.frags with
    | none => none
    | some none => some m
    | some (some actual) =>
      if v = .legacy then
        if actual.rank > v.rank then some { m with fmt := newFmt actual } else some m
      else if actual = v then some m else none

/-- write/commit.rs:200-330 `CommitBuilder::execute`, as far as versions go.  `seen` is the dataset given or
loaded, `cur` the latest version when the commit goes through (io/commit.rs:735-810), `frags` the fragments
the operation results in. -/
def commit (seen cur : Option Man) (isOverwrite : Bool) (frags : List (List File)) (asked : Option V) : Option Man :=
  match seen with
  | none => if isOverwrite then build none true frags asked else none
  | some s =>
    if asked.any (fun v => s.fmt != newFmt v) && !isOverwrite then none
    else (build cur isOverwrite frags asked).bind check

/-- A restore: the manifest of an old version again (io/commit.rs:771-804). -/
def restore (old : Man) : Option Man := check old

/-- The versions of a dataset, oldest first: created, then changed by commits of any fragments. -/
inductive Reach : List Man → Prop
  | create {frags asked m} : commit none none true frags asked = some m → Reach [m]
  | commit {h s c ow frags asked m} : Reach (h ++ [c]) → s ∈ h ++ [c] →
      commit (some s) (some c) ow frags asked = some m → Reach (h ++ [c] ++ [m])
  | restore {h s m} : Reach h → s ∈ h → restore s = some m → Reach (h ++ [m])

/-- write.rs:504-538 `open_writer`: the version in the data file that results. -/
def written (v : V) : File := if v = .legacy then (0, 2) else v.numbers

inductive Mode where
  | create | append | overwrite
  deriving DecidableEq, Repr

/-- write/insert.rs:361-379 and write.rs:323-372: the version used to write and to commit. -/
def writeVersion (mode : Mode) (seen : Option Man) (asked : Option V) : Option V :=
  match mode, seen with
  | .overwrite, some s => match asked with
    | some v => some v
    | none => parse s.fmt
  | _, some s => parse s.fmt
  | _, none => some (asked.getD .v20)

/-- `InsertBuilder::execute`: `files` new fragments of one file each; appended to those of the latest version
or in place of them.  (Creating a dataset that exists is an error, write/insert.rs:241-251; appending to
none creates it.) -/
def insert (mode : Mode) (seen cur : Option Man) (files : Nat) (asked : Option V) : Option Man :=
  if mode = .create ∧ seen.isSome then none
  else match writeVersion mode seen asked with
    | none => none
    | some v =>
      let new := List.replicate files [written v]
      if mode = .append ∧ seen.isSome then commit seen cur false (((cur.map Man.frags).getD []) ++ new) (some v)
      else commit seen cur true new (some v)

/-- fragment/write.rs:172-230 `FragmentCreateBuilder::write`: `params.data_storage_version` decides only
whether the file is a legacy one (`FileWriterOptions::default()` in `write_v2_impl`, 77-135). -/
def fragmentWrite (asked : Option V) : File := if asked.getD .v20 = .legacy then (0, 2) else V.numbers .v20

/-- fragment/write.rs:136-170 `FragmentCreateBuilder::write_fragments`: always `LanceFileVersion::Stable`. -/
def fragmentsWrite (_asked : Option V) : File := written .stable

end Verif.Fmt
