import Verif.Txn.Model
/-!
# Concurrent commits

Source: rust/lance/src/io/commit.rs:698-878 `commit_transaction`, 156-205 `do_commit_new_dataset`,
122-153 `check_transaction`; rust/lance/src/dataset/optimize.rs:587-620 `reserve_fragment_ids`.

Any number of writers and a cleaner take steps in any order.  A writer opens some version, prepares a
transaction, checks it against the transactions committed since, and then tries to write its manifest
under the next version number; the store accepts it only if that manifest does not exist.  Any writer
may stop for ever at any point (crash, error, retries used up).

Checking out the latest version and writing a manifest are single steps (the commit handlers are
modelled in `Verif.Handlers`).
-/
namespace Verif.Txn

/-- A transaction with the ghost list of reservations (versions) whose fragment ids it uses. -/
structure Job where
  tx : Tx
  resv : List Nat
deriving DecidableEq

/-- A committed version.  `gone` is a ghost: the versions that had been cleaned up when it was
committed. -/
structure Entry where
  job : Job
  m : Manifest
  ix : List Idx
  gone : List Nat
deriving DecidableEq

/-- Committed versions, newest first: the head of a list of length `n` is version `n`. -/
abbrev Hist := List Entry

/-- The entry of version `v`. -/
def Hist.look : Hist → Nat → Option Entry
  | [], _ => none
  | e :: h, v => if v = h.length + 1 then some e else Hist.look h v

/-- What can be read of version `v` when the versions in `gone` have been removed. -/
def Hist.read (h : Hist) (gone : List Nat) (v : Nat) : Option (Manifest × List Idx) :=
  if gone.contains v then none else (h.look v).map (fun e => (e.m, e.ix))

/-- A writer. -/
inductive W
  | idle
  /-- has a transaction, not checked yet -/
  | prepared (j : Job)
  /-- checked against everything up to `base`; next it writes version `base + 1` -/
  | ready (j : Job) (base : Nat)
  /-- version `target` was taken -/
  | retry (j : Job) (target : Nat)
  /-- reported success as version `v` -/
  | done (j : Job) (v : Nat)
  | failed

structure Sys where
  hist : Hist
  gone : List Nat
  ws : Nat → W

def Sys.set (s : Sys) (w : Nat) (x : W) : Sys := { s with ws := fun i => if i = w then x else s.ws i }

def Sys.init : Sys := { hist := [], gone := [], ws := fun _ => .idle }

/-- The versions `a+1 … b`. -/
def versionsAfter (a b : Nat) : List Nat := List.range' (a + 1) (b - a)

/-- The operation of version `v` as the checking writer gets it: from the session cache, or from the
transaction file (io/commit.rs:60-105 `read_dataset_transaction_file`). -/
def Hist.opAt (h : Hist) (cached : Nat → Bool) (v : Nat) : Option Op :=
  (h.look v).map (fun e => if cached v then e.job.tx.op else e.job.tx.op.stored)

/-- `check_transaction` for one version. -/
def noConflict (h : Hist) (cached : Nat → Bool) (tx : Tx) (v : Nat) : Bool :=
  match h.opAt cached v with
  | none => false
  | some o => !tx.op.conflicts o

/-! ## How writers prepare transactions -/

/-- A fragment as a file writer leaves it: no id, no deletions, no row ids, row count known
(rust/lance/src/dataset/write.rs, `Fragment::new(0)`). -/
def NewFrag (f : Frag) : Prop := f.id = 0 ∧ f.del = none ∧ f.rowIds = none ∧ f.phys.isSome

/-- The row offsets marked deleted. -/
def Frag.offs (f : Frag) : List Nat := (f.del.map (·.offs)).getD []

/-- A fragment of `m` with a new deletion file (rust/lance/src/dataset/fragment.rs `extend_deletions`:
the rows deleted so far and some more): same id, row ids and row count. -/
def UpdatedFrag (m : Manifest) (u : Frag) : Prop :=
  ∃ f ∈ m.frags, u.id = f.id ∧ u.rowIds = f.rowIds ∧ u.phys = f.phys ∧ ∀ o ∈ f.offs, o ∈ u.offs

/-- A fragment of `m` with other data files (schema evolution: `add_columns`, `merge`, `alter_columns`):
everything but the files is kept. -/
def Frag.rows (f : Frag) : Frag := { f with files := [] }

/-- Row ids of a list of fragments. -/
def rowIdsOf (fs : List Frag) : List Nat := fs.flatMap (fun f => f.rowIds.getD [])

/-- The fragment ids granted by the reservation committed as version `v` (optimize.rs:611-618). -/
def Granted (h : Hist) (v id : Nat) : Prop :=
  ∃ e n, h.look v = some e ∧ e.job.tx.op = .reserve n ∧ e.m.maxFrag + 1 - n ≤ id ∧ id < e.m.maxFrag + 1

/-- What the library's own writers put in a transaction prepared from version `tx.read` of `h`, whose
manifest is `m`:
* `append`, `overwrite`, `update`: new fragments come from a file writer;
* `delete`, `update`: fragments with new deletion files come from `m`;
* `rewrite` (compaction): old fragments come from `m`, the new fragment ids are distinct and come from
  reservations the job made after reading `m`; under stable row ids the new fragments' row ids are
  distinct, as many as rows, and come from the old fragments of the same rewrite, otherwise there are
  none (optimize.rs:771-829 `rechunk_stable_row_ids`);
* `merge`: the fragments of `m` with other data files;
* `dataReplacement`: no fragment is named twice;
* `createIndex`: the indexed fields are in the schema;
* `restore`: an existing version. -/
def Prepared (h : Hist) (m : Manifest) (j : Job) : Prop :=
  match j.tx.op with
  | .append fs => ∀ f ∈ fs, NewFrag f
  | .overwrite fs _ _ => ∀ f ∈ fs, NewFrag f
  | .delete ups del _ => (∀ u ∈ ups, UpdatedFrag m u) ∧ ∀ i ∈ del, i ∈ m.frags.map (·.id)
  | .update rem ups new => (∀ u ∈ ups, UpdatedFrag m u) ∧ (∀ i ∈ rem, i ∈ m.frags.map (·.id)) ∧ ∀ f ∈ new, NewFrag f
  | .rewrite gs _ =>
    (∀ g ∈ gs, ∀ f ∈ g.old, f ∈ m.frags) ∧
    (gs.flatMap (fun g => g.old.map (·.id))).Nodup ∧
    (gs.flatMap (fun g => g.new.map (·.id))).Nodup ∧
    (∀ g ∈ gs, ∀ f ∈ g.new, ∃ v ∈ j.resv, Granted h v f.id) ∧
    (∀ v ∈ j.resv, j.tx.read < v) ∧
    (∀ g ∈ gs, ∀ f ∈ g.new, f.rowIds.isSome = m.usesStable) ∧
    (rowIdsOf (gs.flatMap (·.new))).Nodup ∧
    (∀ i ∈ rowIdsOf (gs.flatMap (·.new)), i ∈ rowIdsOf (gs.flatMap (·.old))) ∧
    (∀ g ∈ gs, ∀ f ∈ g.new, ∀ l, f.rowIds = some l → f.phys = some l.length)
  | .merge fs _ => fs.map Frag.rows = m.frags.map Frag.rows
  | .dataReplacement rs => (rs.map (·.1)).Nodup
  | .restore v => 1 ≤ v ∧ v ≤ h.length
  | .createIndex new _ => ∀ i ∈ new, ∀ f ∈ i.fields, f ∈ m.schema.fields.map (·.1)
  | .reserve n => n < U32
  | _ => True

/-- The jobs currently held by writers. -/
def W.job : W → Option Job
  | .prepared j => some j
  | .ready j _ => some j
  | .retry j _ => some j
  | _ => none

/-- No other job uses one of these reservations. -/
def Sys.Exclusive (s : Sys) (resv : List Nat) : Prop :=
  (∀ w j, (s.ws w).job = some j → ∀ v ∈ resv, v ∉ j.resv) ∧
  (∀ e ∈ s.hist, ∀ v ∈ resv, v ∉ e.job.resv)

/-! ## Steps -/

/-- A reservation does not overflow the 32-bit counter (otherwise it wraps in a release build). -/
def NoWrap (cur : Manifest) (tx : Tx) : Prop :=
  match tx.op with
  | .reserve n => cur.maxFrag + n < U32
  | _ => True

inductive Step : Sys → Sys → Prop
  /-- `do_commit_new_dataset` when no version exists. -/
  | create (s : Sys) (w : Nat) (j : Job) (m : Manifest) (ix : List Idx)
      (hw : s.ws w = .idle) (h0 : s.hist = [])
      (fs : List Frag) (sch : Schema) (up : Option Cfg) (hop : j.tx.op = .overwrite fs sch up)
      (hr : j.resv = []) (hread : j.tx.read = 0)
      (hprep : ∀ f ∈ fs, NewFrag f)
      (hatt : attemptNew j.tx = .ok (m, ix)) :
      Step s ({ s with hist := [⟨j, m, ix, []⟩] }.set w (.done j 1))
  /-- A writer opens version `tx.read` and prepares a transaction. -/
  | begin (s : Sys) (w : Nat) (j : Job) (e : Entry)
      (hw : s.ws w = .idle) (hread : s.hist.look j.tx.read = some e) (hav : j.tx.read ∉ s.gone)
      (hex : s.Exclusive j.resv)
      (hprep : Prepared s.hist e.m j) :
      Step s (s.set w (.prepared j))
  /-- io/commit.rs:735-771: the transactions `read+1 ..= latest` are read in some order and the list is
  cut at the first one that is not found; all that were read must not conflict. -/
  | check (s : Sys) (w : Nat) (j : Job) (order : List Nat) (cached : Nat → Bool)
      (hw : s.ws w = .prepared j)
      (hord : order.Perm (versionsAfter j.tx.read s.hist.length))
      (hok : ∀ v ∈ order.takeWhile (fun v => !s.gone.contains v), noConflict s.hist cached j.tx v = true) :
      Step s (s.set w (.ready j s.hist.length))
  /-- io/commit.rs:773-829: build from the version checked out and write it as the next version. -/
  | commit (s : Sys) (w : Nat) (j : Job) (p : Entry) (h : Hist) (m : Manifest) (ix : List Idx)
      (hw : s.ws w = .ready j s.hist.length) (hh : s.hist = p :: h)
      (hnw : NoWrap p.m j.tx)
      (hatt : attempt (s.hist.read s.gone) (p.m, p.ix) j.tx (s.hist.length + 1) = .ok (m, ix)) :
      Step s ({ s with hist := ⟨j, m, ix, s.gone⟩ :: s.hist }.set w (.done j (s.hist.length + 1)))
  /-- The version number is taken. -/
  | lose (s : Sys) (w : Nat) (j : Job) (base : Nat)
      (hw : s.ws w = .ready j base) (hb : base < s.hist.length) (hg : base + 1 ∉ s.gone) :
      Step s (s.set w (.retry j (base + 1)))
  /-- The version number was taken but its manifest has been cleaned up: the write succeeds although
  newer versions exist. -/
  | late (s : Sys) (w : Nat) (j : Job) (base : Nat)
      (hw : s.ws w = .ready j base) (hb : base < s.hist.length) (hg : base + 1 ∈ s.gone) :
      Step s (s.set w (.done j (base + 1)))
  /-- io/commit.rs:838-862: check `target ..= latest`; a missing transaction is an error here. -/
  | recheck (s : Sys) (w : Nat) (j : Job) (target : Nat) (cached : Nat → Bool)
      (hw : s.ws w = .retry j target)
      (hok : ∀ v ∈ versionsAfter (target - 1) s.hist.length, v ∉ s.gone ∧ noConflict s.hist cached j.tx v = true) :
      Step s (s.set w (.ready j s.hist.length))
  /-- Cleanup removes a version that is not the latest. -/
  | cleanup (s : Sys) (v : Nat) (hv : v < s.hist.length) :
      Step s { s with gone := v :: s.gone }
  /-- Crash, error or no retries left. -/
  | stop (s : Sys) (w : Nat) : Step s (s.set w .failed)

inductive Reach : Sys → Prop
  | init : Reach Sys.init
  | step {s t : Sys} : Reach s → Step s t → Reach t

end Verif.Txn
