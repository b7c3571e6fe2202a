/-!
# Commit handlers as step machines

Sources: rust/lance-table/src/io/commit.rs:719-892 (`UnsafeCommitHandler`, `CommitLock`,
`RenameCommitHandler`), rust/lance-table/src/io/commit/external_manifest.rs:101-352.

Any number of writers and readers, each identified by a number, run concurrently.  One action is one
request to the object store, the lock or the external store; those requests are atomic.  A request can
fail without effect or take effect although an error is reported.  A writer can stop for good between
any two requests.  A manifest's content is identified with the writer that wrote it, so a file is `some i`
when it holds what writer `i` wrote.
-/
namespace Verif.Handlers

/-- How a request ends: normally, with an error and no effect, or with an error after taking effect. -/
inductive Fault | ok | before | after
deriving DecidableEq, Repr

/-- What `commit` returned. -/
inductive Out | success | conflict | other
deriving DecidableEq, Repr

/-- A function updated at one point. -/
def upd {α : Type} (f : Nat → α) (i : Nat) (a : α) : Nat → α := fun j => if j = i then a else f j

/-! ## Handlers without an external store -/

inductive Kind | naive | lock | rename
deriving DecidableEq, Repr

/-- Where a writer is in `commit`. -/
inductive Pc
  | idle
  | begun
  | staged                 -- temporary file written (rename)
  | locked                 -- lease held (lock)
  | checked                -- lease held, version not present (lock)
  | written (ok : Bool)    -- write done, lease held (lock)
  | done (o : Out)
  | crashed
deriving DecidableEq, Repr

structure St where
  ver : Nat → Nat                 -- the version each writer commits
  pc : Nat → Pc
  final : Nat → Option Nat        -- version file: whose manifest
  tmp : Nat → Bool                -- temporary file of each writer
  lock : Option Nat               -- holder of the lease

def init : St := ⟨fun _ => 0, fun _ => .idle, fun _ => none, fun _ => false, none⟩

inductive Act
  | begin (i v : Nat)
  | run (i : Nat) (f : Fault)
  | crash (i : Nat)
  | expire                        -- the lease times out
deriving DecidableEq, Repr

/-- commit.rs:722-747 `UnsafeCommitHandler::commit`: write to the version's own path. -/
def runNaive (s : St) (i : Nat) (f : Fault) : St :=
  match s.pc i with
  | .begun =>
    match f with
    | .ok => { s with final := upd s.final (s.ver i) (some i), pc := upd s.pc i (.done .success) }
    | .before => { s with pc := upd s.pc i (.done .other) }
    | .after => { s with final := upd s.final (s.ver i) (some i), pc := upd s.pc i (.done .other) }
  | _ => s

/-- commit.rs:859-892 `RenameCommitHandler::commit`: write a temporary file, `rename_if_not_exists`. -/
def runRename (s : St) (i : Nat) (f : Fault) : St :=
  match s.pc i with
  | .begun =>
    match f with
    | .ok => { s with tmp := upd s.tmp i true, pc := upd s.pc i .staged }
    | .before => { s with pc := upd s.pc i (.done .other) }
    | .after => { s with tmp := upd s.tmp i true, pc := upd s.pc i (.done .other) }
  | .staged =>
    match f with
    | .before => { s with pc := upd s.pc i (.done .other) }
    | .ok =>
      if s.final (s.ver i) = none then
        { s with final := upd s.final (s.ver i) (some i), tmp := upd s.tmp i false,
                 pc := upd s.pc i (.done .success) }
      else { s with tmp := upd s.tmp i false, pc := upd s.pc i (.done .conflict) }
    | .after =>
      if s.final (s.ver i) = none then
        { s with final := upd s.final (s.ver i) (some i), tmp := upd s.tmp i false,
                 pc := upd s.pc i (.done .other) }
      else { s with pc := upd s.pc i (.done .other) }
  | _ => s

/-- Giving the lease back; a lease that was lost meanwhile is someone else's. -/
def release (s : St) (i : Nat) : Option Nat := if s.lock = some i then none else s.lock

/-- commit.rs:781-822 `commit` for a `CommitLock`: take the lease, `head` the path, write, release. -/
def runLock (s : St) (i : Nat) (f : Fault) : St :=
  match s.pc i with
  | .begun =>
    match f with
    | .ok => if s.lock = none then { s with lock := some i, pc := upd s.pc i .locked } else s
    | .before => { s with pc := upd s.pc i (.done .other) }
    | .after => if s.lock = none then { s with lock := some i, pc := upd s.pc i (.done .other) } else s
  | .locked =>
    match f with
    | .ok =>
      if s.final (s.ver i) = none then { s with pc := upd s.pc i .checked }
      else { s with lock := release s i, pc := upd s.pc i (.done .conflict) }
    | _ => { s with lock := release s i, pc := upd s.pc i (.done .other) }
  | .checked =>
    match f with
    | .ok => { s with final := upd s.final (s.ver i) (some i), pc := upd s.pc i (.written true) }
    | .before => { s with pc := upd s.pc i (.written false) }
    | .after => { s with final := upd s.final (s.ver i) (some i), pc := upd s.pc i (.written false) }
  | .written ok =>
    match f with
    | .ok => { s with lock := release s i, pc := upd s.pc i (.done (if ok then .success else .other)) }
    | .before => { s with pc := upd s.pc i (.done .other) }
    | .after => { s with lock := release s i, pc := upd s.pc i (.done .other) }
  | _ => s

/-- One action under handler `k`. -/
def step (k : Kind) (s : St) : Act → St
  | .begin i v =>
    if s.pc i = .idle then { s with ver := upd s.ver i v, pc := upd s.pc i .begun } else s
  | .run i f =>
    match k with
    | .naive => runNaive s i f
    | .lock => runLock s i f
    | .rename => runRename s i f
  | .crash i =>
    match s.pc i with
    | .idle => s
    | .done _ => s
    | _ => { s with pc := upd s.pc i .crashed }
  | .expire => { s with lock := none }

def runAll (k : Kind) (s : St) (as : List Act) : St := as.foldl (step k) s

/-! ## The external manifest store -/

/-- What the external store records for a version. -/
inductive Ptr
  | staged (i : Nat)       -- the staging path of writer `i`
  | final                  -- the version's own path
deriving DecidableEq, Repr

/-- Where a writer is in `commit` (external_manifest.rs:307-352, 112-144). -/
inductive XPc
  | idle
  | begun
  | staged                 -- staging manifest written
  | lost                   -- the external store refused; staging still to delete
  | put                    -- recorded in the external store
  | copied
  | flipped
  | done (o : Out)
  | crashed
deriving DecidableEq, Repr

/-- Where a reader is in `resolve_version` (external_manifest.rs:222-287, 112-144).  `found v` is the
answer "the manifest of version `v` is at its own path". -/
inductive RPc
  | idle
  | miss (v : Nat)         -- the external store does not know the version
  | here (v : Nat)         -- ... but its own path exists
  | got (v i : Nat)
  | copied (v i : Nat)
  | flipped (v i : Nat)
  | found (v : Nat)
  | notFound (v : Nat)
  | failed
deriving DecidableEq, Repr

structure XSt where
  ver : Nat → Nat
  pc : Nat → XPc
  rd : Nat → RPc
  ext : Nat → Option Ptr
  staging : Nat → Bool
  final : Nat → Option Nat

/-- The start: `leg v` is the manifest already at version `v`'s own path when the external store is taken
into use (nothing, for a new dataset). -/
def xinit (leg : Nat → Option Nat) : XSt :=
  ⟨fun _ => 0, fun _ => .idle, fun _ => .idle, fun _ => none, fun _ => false, leg⟩

inductive XAct
  | begin (i v : Nat)
  | run (i : Nat) (f : Fault)
  | crash (i : Nat)
  | get (r v : Nat)        -- a reader asks the external store for version `v`
  | read (r : Nat) (f : Fault)
deriving DecidableEq, Repr

/-- external_manifest.rs:307-352 `commit` followed by 112-144 `finalize_manifest`. -/
def xrun (s : XSt) (i : Nat) (f : Fault) : XSt :=
  let v := s.ver i
  match s.pc i with
  | .begun =>
    match f with
    | .ok => { s with staging := upd s.staging i true, pc := upd s.pc i .staged }
    | .before => { s with pc := upd s.pc i (.done .other) }
    | .after => { s with staging := upd s.staging i true, pc := upd s.pc i (.done .other) }
  | .staged =>
    match f with
    | .ok =>
      if s.ext v = none then { s with ext := upd s.ext v (some (.staged i)), pc := upd s.pc i .put }
      else { s with pc := upd s.pc i .lost }
    | .before => { s with pc := upd s.pc i .lost }
    | .after =>
      if s.ext v = none then { s with ext := upd s.ext v (some (.staged i)), pc := upd s.pc i .lost }
      else { s with pc := upd s.pc i .lost }
  | .lost =>
    match f with
    | .ok => { s with staging := upd s.staging i false, pc := upd s.pc i (.done .conflict) }
    | .before => { s with pc := upd s.pc i (.done .other) }
    | .after => { s with staging := upd s.staging i false, pc := upd s.pc i (.done .other) }
  | .put =>
    match f with
    | .ok =>
      if s.staging i then { s with final := upd s.final v (some i), pc := upd s.pc i .copied }
      else { s with pc := upd s.pc i (.done .success) }
    | .before => { s with pc := upd s.pc i (.done .other) }
    | .after =>
      if s.staging i then { s with final := upd s.final v (some i), pc := upd s.pc i (.done .other) }
      else { s with pc := upd s.pc i (.done .other) }
  | .copied =>
    match f with
    | .ok =>
      if s.ext v = none then { s with pc := upd s.pc i (.done .other) }
      else { s with ext := upd s.ext v (some .final), pc := upd s.pc i .flipped }
    | .before => { s with pc := upd s.pc i (.done .other) }
    | .after =>
      if s.ext v = none then { s with pc := upd s.pc i (.done .other) }
      else { s with ext := upd s.ext v (some .final), pc := upd s.pc i (.done .other) }
  | .flipped =>
    match f with
    | .ok => { s with staging := upd s.staging i false, pc := upd s.pc i (.done .success) }
    | .before => { s with pc := upd s.pc i (.done .other) }
    | .after => { s with staging := upd s.staging i false, pc := upd s.pc i (.done .other) }
  | _ => s

/-- external_manifest.rs:222-287 after the answer of the external store: a version it does not know is
looked for at its own path (233-268) and recorded best-effort; a staged one is finalized for the writer.
`default_resolve_version` and the `exists` call are one request here. -/
def xread (s : XSt) (r : Nat) (f : Fault) : XSt :=
  match s.rd r with
  | .miss v =>
    match f with
    | .ok =>
      if s.final v = none then { s with rd := upd s.rd r (.notFound v) }
      else { s with rd := upd s.rd r (.here v) }
    | _ => { s with rd := upd s.rd r .failed }
  | .here v =>
    match f with
    | .before => { s with rd := upd s.rd r (.found v) }
    | _ =>
      if s.ext v = none then { s with ext := upd s.ext v (some .final), rd := upd s.rd r (.found v) }
      else { s with rd := upd s.rd r (.found v) }
  | .got v i =>
    match f with
    | .ok =>
      if s.staging i then { s with final := upd s.final v (some i), rd := upd s.rd r (.copied v i) }
      else { s with rd := upd s.rd r (.found v) }
    | .before => { s with rd := upd s.rd r .failed }
    | .after =>
      if s.staging i then { s with final := upd s.final v (some i), rd := upd s.rd r .failed }
      else { s with rd := upd s.rd r .failed }
  | .copied v i =>
    match f with
    | .ok =>
      if s.ext v = none then { s with rd := upd s.rd r .failed }
      else { s with ext := upd s.ext v (some .final), rd := upd s.rd r (.flipped v i) }
    | .before => { s with rd := upd s.rd r .failed }
    | .after =>
      if s.ext v = none then { s with rd := upd s.rd r .failed }
      else { s with ext := upd s.ext v (some .final), rd := upd s.rd r .failed }
  | .flipped v i =>
    match f with
    | .ok => { s with staging := upd s.staging i false, rd := upd s.rd r (.found v) }
    | .before => { s with rd := upd s.rd r .failed }
    | .after => { s with staging := upd s.staging i false, rd := upd s.rd r .failed }
  | _ => s

/-- One action.  A reader can start over at any time. -/
def xstep (s : XSt) : XAct → XSt
  | .begin i v =>
    if s.pc i = .idle then { s with ver := upd s.ver i v, pc := upd s.pc i .begun } else s
  | .run i f => xrun s i f
  | .crash i =>
    match s.pc i with
    | .idle => s
    | .done _ => s
    | _ => { s with pc := upd s.pc i .crashed }
  | .get r v =>
    match s.ext v with
    | none => { s with rd := upd s.rd r (.miss v) }
    | some .final => { s with rd := upd s.rd r (.found v) }
    | some (.staged i) => { s with rd := upd s.rd r (.got v i) }
  | .read r f => xread s r f

def xrunAll (s : XSt) (as : List XAct) : XSt := as.foldl xstep s

/-- The greatest `v < n` with `f v` present. -/
def latestOf {α : Type} (f : Nat → Option α) : Nat → Option Nat
  | 0 => none
  | n + 1 => if (f n).isSome then some n else latestOf f n

/-- external_manifest.rs:200-220 `resolve_latest_version_id`: what the external store knows, else what the
directory holds.  `n` bounds the versions in use. -/
def xlatest (s : XSt) (n : Nat) : Option Nat :=
  match latestOf s.ext n with
  | some v => some v
  | none => latestOf s.final n

/-- external_manifest.rs:149-165 `resolve_latest_location`: the path is resolved in state `s`, the version
number asked for afterwards, in state `t`.  The path is given by the version it belongs to. -/
def xlocation (s t : XSt) (n : Nat) : Option Nat × Option Nat := (xlatest t n, xlatest s n)

end Verif.Handlers
