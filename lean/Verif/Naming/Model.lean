/-!
# Names of version files and finding the latest version

Source: rust/lance-table/src/io/commit.rs:60-391, 484-523.

A file name is the list of its characters; names are taken to be ASCII, so that `len()` (bytes) is the
number of characters.  Only the last component of a path is modelled, the directory is always
`_versions`.  Metadata of a file (size) and I/O errors are left out.
-/
namespace Verif.Naming

abbrev Name := List Char

/-- commit.rs:66-75 `ManifestNamingScheme`. -/
inductive Scheme | v1 | v2
deriving DecidableEq, Repr

/-! ## Decimal numbers -/

def digitChar (d : Nat) : Char := Char.ofNat (48 + d)

/-- `format!("{n}")`. -/
def showNat (n : Nat) : Name :=
  if n < 10 then [digitChar n] else showNat (n / 10) ++ [digitChar (n % 10)]
termination_by n
decreasing_by omega

/-- `format!("{n:020}")`. -/
def showPadded (n : Nat) : Name := List.replicate (20 - (showNat n).length) '0' ++ showNat n

def digitVal (c : Char) : Option Nat :=
  if 48 ≤ c.toNat ∧ c.toNat ≤ 57 then some (c.toNat - 48) else none

/-- `u64::from_str`, the digits: a value that does not fit is an error. -/
def parseDigits (acc : Nat) : Name → Option Nat
  | [] => some acc
  | c :: cs =>
    match digitVal c with
    | none => none
    | some d => if acc * 10 + d < 18446744073709551616 then parseDigits (acc * 10 + d) cs else none

/-- `u64::from_str`: empty is an error, a leading `+` is accepted when digits follow. -/
def parseU64 : Name → Option Nat
  | [] => none
  | c :: cs => if c = '+' then (if cs = [] then none else parseDigits 0 cs) else parseDigits 0 (c :: cs)

/-! ## Names -/

/-- commit.rs:61. -/
def ext : Name := ['m', 'a', 'n', 'i', 'f', 'e', 's', 't']

/-- rust/lance-table/src/format/manifest.rs:94-99 `is_detached_version`, for `v < 2^64`. -/
def isDetached (v : Nat) : Bool := decide (9223372036854775808 ≤ v)

/-- commit.rs:78-98 `manifest_path`, the file name. -/
def fileName (s : Scheme) (v : Nat) : Name :=
  if isDetached v then 'd' :: (showNat v ++ '.' :: ext)
  else
    match s with
    | .v1 => showNat v ++ '.' :: ext
    | .v2 => showPadded (18446744073709551615 - v) ++ '.' :: ext

/-- `split_once('.')`, the part before. -/
def beforeDot (n : Name) : Option Name := if '.' ∈ n then some (n.takeWhile (· ≠ '.')) else none

/-- commit.rs:100-109 `parse_version`. -/
def parseVersion (s : Scheme) (n : Name) : Option Nat :=
  match s with
  | .v1 => (beforeDot n).bind parseU64
  | .v2 => ((beforeDot n).bind parseU64).map (fun v => 18446744073709551615 - v)

/-- commit.rs:111-126 `detect_scheme`. -/
def detect (n : Name) : Option Scheme :=
  if n.head? = some 'd' then some .v2
  else if ext.isSuffixOf n then (if n.length = 29 then some .v2 else some .v1)
  else none

/-- commit.rs:128-136 `detect_scheme_staging`. -/
def detectStaging (n : Name) : Scheme := if n[20]? = some '.' then .v2 else .v1

/-- commit.rs:382-388 `make_staging_manifest_path`; `id` is the fresh uuid, whose text has no dot. -/
def stagingName (n : Name) (id : Name) : Name := n ++ '-' :: id

/-! ## The latest version -/

/-- commit.rs:178-188 `ManifestLocation`. -/
structure Loc where
  version : Nat
  name : Name
  scheme : Scheme
deriving DecidableEq, Repr

inductive Res
  | ok (l : Loc)
  | mixed
  | notFound
  | panic
deriving DecidableEq, Repr

/-- commit.rs:294-352 `current_manifest_local`: the loop; state is the scheme seen and the latest entry. -/
def localLoop : Option Scheme → Option (Nat × Name) → List Name → Option (Option Scheme × Option (Nat × Name))
  | s, l, [] => some (s, l)
  | s, l, e :: es =>
    match detect e with
    | none => localLoop s l es
    | some es' =>
      if s ≠ none ∧ s ≠ some es' then none
      else
        match parseVersion es' e with
        | none => localLoop (some es') l es
        | some v =>
          match l with
          | some (lv, ln) => localLoop (some es') (if v > lv then some (v, e) else some (lv, ln)) es
          | none => localLoop (some es') (some (v, e)) es

/-- commit.rs:294-352 `current_manifest_local`; `none` when it fails or finds nothing. -/
def currentLocal (entries : List Name) : Option Loc :=
  match localLoop none none entries with
  | some (some s, some (v, e)) => some ⟨v, e, s⟩
  | _ => none

/-- commit.rs:204-212: the valid manifests of a listing. -/
def valid (listing : List Name) : List (Scheme × Name) :=
  listing.filterMap (fun n => (detect n).map (fun s => (s, n)))

/-- commit.rs:225-244, the sanity check; `false` when an `unwrap` panics. -/
def sanity (version : Nat) : List (Scheme × Name) → Bool
  | [] => true
  | (s, n) :: r =>
    if s ≠ .v2 then true
    else
      match parseVersion s n with
      | none => false
      | some w => if w ≥ version then true else sanity version r

/-- commit.rs:255-277, the second branch. -/
def maxLoop (scheme : Scheme) : Nat → Name → List (Scheme × Name) → Res
  | v, n, [] => .ok ⟨v, n, scheme⟩
  | v, n, (s, m) :: r =>
    if s = .v2 then .mixed
    else
      match parseVersion s m with
      | none => .panic
      | some w => if w > v then maxLoop scheme w m r else maxLoop scheme v n r

/-- commit.rs:199-289, listing the directory. -/
def currentListed (ordered : Bool) (listing : List Name) : Res :=
  match valid listing with
  | [] => .notFound
  | (s, n) :: r =>
    match parseVersion s n with
    | none => .panic
    | some v =>
      if s = .v2 ∧ ordered = true then (if sanity v (r.take 999) then .ok ⟨v, n, s⟩ else .panic)
      else maxLoop s v n r

/-- commit.rs:191-289 `current_manifest_path`. -/
def current (isLocal ordered : Bool) (listing : List Name) : Res :=
  if isLocal then
    match currentLocal listing with
    | some l => .ok l
    | none => currentListed ordered listing
  else currentListed ordered listing

/-- commit.rs:484-523 `default_resolve_version`. -/
def resolve (files : List Name) (v : Nat) : Loc :=
  if isDetached v then ⟨v, fileName .v2 v, .v2⟩
  else if fileName .v2 v ∈ files then ⟨v, fileName .v2 v, .v2⟩
  else ⟨v, fileName .v1 v, .v1⟩

/-- commit.rs:147-174 `migrate_scheme_to_v2`: the new name of each file; `none` is a panic.  The
directory is a set of names: a rename onto an existing name replaces that file. -/
def migrateName (n : Name) : Option Name :=
  if detect n = some .v1 then (parseVersion .v1 n).map (fileName .v2) else some n

def migrate (files : List Name) : Option (List Name) := files.mapM migrateName

end Verif.Naming
