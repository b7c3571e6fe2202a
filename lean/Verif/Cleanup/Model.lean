import Verif.Naming.Model
/-!
# Removing old versions, and tags

Sources: rust/lance/src/dataset/cleanup.rs:71-440, rust/lance/src/dataset/refs.rs:40-267.

A path is relative to the dataset and is the list of its segments; a segment is a list of characters.
Times are integers on one clock.
-/
namespace Verif.Cleanup
open Verif.Naming (Name showNat)

abbrev Path := List Name

/-! ## Cleanup -/

/-- The deletion file of a fragment (fragment.rs:167-173); `bin` tells a bitmap from an array. -/
structure Del where
  frag : Nat
  read : Nat
  id : Nat
  bin : Bool
deriving DecidableEq, Repr

/-- The parts of a manifest cleanup looks at, with its path and the ids of its index section. -/
structure Man where
  path : Path
  version : Nat
  time : Int
  data : List Name
  dels : List Del
  tx : Option Name
  idx : List Name
deriving DecidableEq, Repr

/-- An object in the listing of the dataset directory. -/
structure Obj where
  path : Path
  mtime : Int
deriving DecidableEq, Repr

/-- Arguments of cleanup.rs:429-442 `cleanup_old_versions` and the version of the open dataset. -/
structure Cfg where
  cur : Nat
  before : Int
  now : Int
  unverified : Bool
  errTagged : Bool
deriving DecidableEq, Repr

def sData : Name := ['d', 'a', 't', 'a']
def sDels : Name := ['_', 'd', 'e', 'l', 'e', 't', 'i', 'o', 'n', 's']
def sTx : Name := ['_', 't', 'r', 'a', 'n', 's', 'a', 'c', 't', 'i', 'o', 'n', 's']
def sIdx : Name := ['_', 'i', 'n', 'd', 'i', 'c', 'e', 's']
def sVersions : Name := ['_', 'v', 'e', 'r', 's', 'i', 'o', 'n', 's']
def sTmp : Name := ['.', 't', 'm', 'p']
def eLance : Name := ['l', 'a', 'n', 'c', 'e']
def eManifest : Name := ['m', 'a', 'n', 'i', 'f', 'e', 's', 't']
def eArrow : Name := ['a', 'r', 'r', 'o', 'w']
def eBin : Name := ['b', 'i', 'n']
def eTxn : Name := ['t', 'x', 'n']

/-- rust/lance-table/src/io/deletion.rs:36-46 `deletion_file_path`. -/
def delPath (d : Del) : Path :=
  [sDels, showNat d.frag ++ '-' :: showNat d.read ++ '-' :: showNat d.id ++ '.' :: (if d.bin then eBin else eArrow)]

def dataPath (n : Name) : Path := [sData, n]
def txPath (n : Name) : Path := [sTx, n]

/-- `object_store::path::Path::extension`: what follows the last dot of the file name, if not empty. -/
def extension (p : Path) : Option Name :=
  match p.getLast? with
  | none => none
  | some n => if '.' ∈ n then (let e := (n.reverse.takeWhile (· ≠ '.')).reverse; if e = [] then none else some e) else none

/-- `relative_path.as_ref().starts_with(s)` for an `s` without a slash: only the first segment matters. -/
def startsWith (p : Path) (s : Name) : Bool :=
  match p with
  | [] => false
  | n :: _ => s.isPrefixOf n

/-- cleanup.rs:307 `starts_with("_versions/.tmp")`. -/
def isTmp (p : Path) : Bool :=
  match p with
  | d :: n :: _ => d = sVersions && sTmp.isPrefixOf n
  | _ => false

/-- cleanup.rs:178-180. -/
def inWorkingSet (c : Cfg) (tags : List Nat) (m : Man) : Bool :=
  decide (c.cur ≤ m.version) || decide (m.time ≥ c.before) || tags.contains m.version

/-- cleanup.rs:89-102 `CleanupInspection`. -/
structure Insp where
  refData : List Path
  refDels : List Path
  refTx : List Path
  refIdx : List Name
  verData : List Path
  verDels : List Path
  verTx : List Path
  verIdx : List Name
  old : List Path
  tagged : List Nat
deriving DecidableEq, Repr

/-- cleanup.rs:166-240, over all manifests.  The code inspects them concurrently and collects into sets, so
order and repetition do not matter. -/
def inspect (c : Cfg) (tags : List Nat) (mans : List Man) : Insp :=
  let keep := mans.filter (inWorkingSet c tags)
  let drop := mans.filter (fun m => !inWorkingSet c tags m)
  { refData := keep.flatMap (fun m => m.data.map dataPath)
    refDels := keep.flatMap (fun m => m.dels.map delPath)
    refTx := keep.flatMap (fun m => m.tx.toList.map txPath)
    refIdx := keep.flatMap (·.idx)
    verData := drop.flatMap (fun m => m.data.map dataPath)
    verDels := drop.flatMap (fun m => m.dels.map delPath)
    verTx := drop.flatMap (fun m => m.tx.toList.map txPath)
    verIdx := drop.flatMap (·.idx)
    old := drop.map (·.path)
    tagged := (mans.filter (fun m => tags.contains m.version)).map (·.version) }

/-- The repeated test: keep what is referenced; remove what is not in progress or known to be old. -/
def stale {α : Type} [DecidableEq α] (inProgress : Bool) (ref ver : List α) (x : α) : Bool :=
  if x ∈ ref then false else !inProgress || decide (x ∈ ver)

/-- cleanup.rs:319-337, an index file; `none` when the test falls through to the extension. -/
def idxVerdict (i : Insp) (inProgress : Bool) (p : Path) : Option Bool :=
  match p with
  | _ :: u :: _ =>
    if u ∈ i.refIdx then some false
    else if !inProgress || decide (u ∈ i.verIdx) then some true
    else none
  | _ => some false

/-- cleanup.rs:338-408. -/
def extVerdict (i : Insp) (inProgress : Bool) (p : Path) : Bool :=
  match extension p with
  | none => false
  | some e =>
    if e = eLance then (if startsWith p sData then stale inProgress i.refData i.verData p else false)
    else if e = eManifest then false
    else if e = eArrow ∨ e = eBin then
      (if startsWith p sDels then stale inProgress i.refDels i.verDels p else false)
    else if e = eTxn then (if startsWith p sTx then stale inProgress i.refTx i.verTx p else false)
    else false

/-- cleanup.rs:299-409 `path_if_not_referenced`: whether the file is to be removed. -/
def removable (i : Insp) (inProgress : Bool) (p : Path) : Bool :=
  if isTmp p then !inProgress
  else if startsWith p sIdx then
    match idxVerdict i inProgress p with
    | some b => b
    | none => extVerdict i inProgress p
  else extVerdict i inProgress p

/-- cleanup.rs:104-105: seven days in milliseconds. -/
def threshold : Int := 604800000

/-- cleanup.rs:242-297 `delete_unreferenced_files`: the paths given to `remove_stream`, in order. -/
def toRemove (c : Cfg) (i : Insp) (objs : List Obj) : List Path :=
  ((objs.filter (fun o => decide (o.mtime < c.before))).filter
    (fun o => removable i (!c.unverified && decide (o.mtime ≥ c.now - threshold)) o.path)).map (·.path)
  ++ i.old

/-- cleanup.rs:124-148 `run`; `none` is the error about tagged versions. -/
def run (c : Cfg) (tags : List Nat) (mans : List Man) (objs : List Obj) : Option (List Path) :=
  let i := inspect c tags mans
  if c.errTagged && !i.tagged.isEmpty then none else some (toRemove c i objs)

/-! ## Tags -/

/-- `char::is_alphanumeric`: letters and digits for ASCII; `uni` for the other characters. -/
def alnum (uni : Char → Bool) (c : Char) : Bool := if c.toNat < 128 then c.isAlphanum else uni c

/-- `s.contains("..")`. -/
def hasDots : Name → Bool
  | [] => false
  | [_] => false
  | a :: b :: r => (a == '.' && b == '.') || hasDots (b :: r)

/-- refs.rs:226-267 `check_valid_ref`. -/
def validRef (uni : Char → Bool) (s : Name) : Bool :=
  !s.isEmpty &&
  s.all (fun c => alnum uni c || c == '.' || c == '-' || c == '_') &&
  !(s.head? == some '.') &&
  !(s.getLast? == some '.') &&
  !(['.', 'l', 'o', 'c', 'k'].isSuffixOf s) &&
  !(hasDots s)

def eJson : Name := ['.', 'j', 's', 'o', 'n']
def sRefs : Name := ['_', 'r', 'e', 'f', 's']
def sTags : Name := ['t', 'a', 'g', 's']

/-- `object_store::path::PathPart`: printable ASCII characters that are not kept as they are. -/
def reserved : List Char :=
  ['/', '\\', '{', '^', '}', '%', '`', ']', '"', '>', '[', '~', '<', '#', '|', '*', '?']

def hexDigit (n : Nat) : Char := if n < 10 then Char.ofNat (48 + n) else Char.ofNat (55 + n)

/-- `percent_encoding::percent_encode` for one byte: bytes outside printable ASCII and reserved characters
become `%XX`. -/
def encByte (b : UInt8) : Name :=
  if 32 ≤ b.toNat ∧ b.toNat < 127 ∧ Char.ofNat b.toNat ∉ reserved then [Char.ofNat b.toNat]
  else ['%', hexDigit (b.toNat / 16), hexDigit (b.toNat % 16)]

/-- `PathPart::from(&str)`, for a text other than `.` and `..`. -/
def pathPart (n : Name) : Name := (n.flatMap String.utf8EncodeChar).flatMap encByte

/-- refs.rs:204-210 `tag_path`; `Path::child` encodes the segment. -/
def tagPath (tag : Name) : Path := [sRefs, sTags, pathPart (tag ++ eJson)]

/-- The tag directory (file name and version recorded in the file) and the versions that exist. -/
structure TagSt where
  files : List (Path × Nat)
  versions : List Nat
deriving DecidableEq, Repr

def TagSt.get (s : TagSt) (p : Path) : Option Nat := (s.files.find? (fun e => e.1 = p)).map (·.2)
def TagSt.put (s : TagSt) (p : Path) (v : Nat) : TagSt :=
  { s with files := (p, v) :: s.files.filter (fun e => e.1 ≠ p) }
def TagSt.remove (s : TagSt) (p : Path) : TagSt := { s with files := s.files.filter (fun e => e.1 ≠ p) }

inductive TagErr | invalid | notFound | conflict | versionNotFound
deriving DecidableEq, Repr

/-- refs.rs:91-105 `get_version`. -/
def TagSt.getVersion (uni : Char → Bool) (s : TagSt) (tag : Name) : Except TagErr Nat :=
  if !validRef uni tag then .error .invalid
  else
    match s.get (tagPath tag) with
    | none => .error .notFound
    | some v => .ok v

/-- refs.rs:107-140 `create`. -/
def TagSt.create (uni : Char → Bool) (s : TagSt) (tag : Name) (v : Nat) : Except TagErr TagSt :=
  if !validRef uni tag then .error .invalid
  else if (s.get (tagPath tag)).isSome then .error .conflict
  else if v ∈ s.versions then .ok (s.put (tagPath tag) v)
  else .error .versionNotFound

/-- refs.rs:142-154 `delete`. -/
def TagSt.delete (uni : Char → Bool) (s : TagSt) (tag : Name) : Except TagErr TagSt :=
  if !validRef uni tag then .error .invalid
  else if (s.get (tagPath tag)).isNone then .error .notFound
  else .ok (s.remove (tagPath tag))

/-- refs.rs:156-188 `update`. -/
def TagSt.update (uni : Char → Bool) (s : TagSt) (tag : Name) (v : Nat) : Except TagErr TagSt :=
  if !validRef uni tag then .error .invalid
  else if (s.get (tagPath tag)).isNone then .error .notFound
  else if v ∈ s.versions then .ok (s.put (tagPath tag) v)
  else .error .versionNotFound

/-- `name.strip_suffix(".json")`. -/
def stripJson (n : Name) : Option Name :=
  if eJson.isSuffixOf n then some (n.take (n.length - eJson.length)) else none

/-- The names of the files directly in the tag directory. -/
def TagSt.names (s : TagSt) : List Name :=
  s.files.filterMap (fun e =>
    match e.1 with
    | [a, b, n] => if a = sRefs ∧ b = sTags then some n else none
    | _ => none)

/-- refs.rs:57-89 `list`: the file names of the directory without `.json`, each looked up again under the
path of the tag of that name.  The result is a map with distinct keys; here the list of its entries. -/
def TagSt.readAll (s : TagSt) : List Name → Except TagErr (List (Name × Nat))
  | [] => .ok []
  | t :: ts =>
    match s.get (tagPath t) with
    | none => .error .notFound
    | some v =>
      match s.readAll ts with
      | .error e => .error e
      | .ok r => .ok ((t, v) :: r)

def TagSt.list (s : TagSt) : Except TagErr (List (Name × Nat)) := s.readAll (s.names.filterMap stripJson)

/-- A call of the tag interface, or a change of the set of versions by others. -/
inductive TagOp
  | create (tag : Name) (v : Nat)
  | update (tag : Name) (v : Nat)
  | delete (tag : Name)
  | versions (vs : List Nat)
deriving DecidableEq, Repr

/-- A call that fails leaves the store as it is. -/
def TagSt.step (uni : Char → Bool) (s : TagSt) : TagOp → TagSt
  | .create t v => match s.create uni t v with | .ok s' => s' | .error _ => s
  | .update t v => match s.update uni t v with | .ok s' => s' | .error _ => s
  | .delete t => match s.delete uni t with | .ok s' => s' | .error _ => s
  | .versions vs => { s with versions := vs }

def TagSt.runAll (uni : Char → Bool) (s : TagSt) (ops : List TagOp) : TagSt := ops.foldl (TagSt.step uni) s

/-- A process inside refs.rs:107-140 `create`: not begun, past the checks, finished with success, or failed. -/
inductive Phase | start | checked | ok | failed
deriving DecidableEq, Repr

structure Creator where
  tag : Name
  v : Nat
  pc : Phase
deriving DecidableEq, Repr

/-- One store operation of `create`: the checks (`exists`, line 112), then the unconditional `put` (line 134). -/
def Creator.step (uni : Char → Bool) (s : TagSt) (c : Creator) : TagSt × Creator :=
  match c.pc with
  | .start =>
    match s.create uni c.tag c.v with
    | .ok _ => (s, { c with pc := .checked })
    | .error _ => (s, { c with pc := .failed })
  | .checked => (s.put (tagPath c.tag) c.v, { c with pc := .ok })
  | .ok => (s, c)
  | .failed => (s, c)

/-- Two creators under a schedule; `true` lets the first move. -/
def twoCreators (uni : Char → Bool) : List Bool → TagSt × Creator × Creator → TagSt × Creator × Creator
  | [], x => x
  | true :: r, (s, a, b) => let (s', a') := a.step uni s; twoCreators uni r (s', a', b)
  | false :: r, (s, a, b) => let (s', b') := b.step uni s; twoCreators uni r (s', a, b')

end Verif.Cleanup
