import Verif.Read.Model

/-!
# Adding columns: the fragment updater and the hash join

Models `rust/lance/src/dataset/updater.rs` (51-406), `rust/lance/src/dataset/hash_joiner.rs` (39-208),
`rust/lance/src/dataset/fragment.rs` (1348-1399 `updater`, 1461-1472 `merge`) and `rust/lance-core/src/datatypes.rs`
(375-385, which types may hold nulls).
-/
namespace Verif.Join
open Verif Verif.Read Verif.Deletion

/-- The errors (and panics) of this code, told apart. -/
inductive Err where
  | tooManyMissing  -- updater.rs:116, 368
  | sizeDiffers     -- updater.rs:165
  | batchSize       -- updater.rs:342
  | noData          -- hash_joiner.rs:56
  | keyType         -- hash_joiner.rs:132
  | nulls           -- hash_joiner.rs:187
  | panic           -- an index out of bounds or an `unwrap`
  | read            -- the read of the fragment failed
deriving DecidableEq, Repr

/-! ## The deletion restorer -/

/-- updater.rs:236-245 `DeletionRestorer`.  `pending` is what the sorted iterator will still yield, the stashed id
(`last_deleted_row_id`) in front; `exhausted` is `deletion_vector_iter.is_none()`, which is set only when a call has
run into the end of the iterator. -/
structure Restorer where
  current : Nat
  legacy : Option Nat
  pending : List Nat
  exhausted : Bool
deriving DecidableEq, Repr

/-- updater.rs:248-255 `new`. -/
def Restorer.new (dv : List Nat) (legacy : Option Nat) : Restorer :=
  { current := 0, legacy := legacy, pending := dv, exhausted := false }

/-- updater.rs:261-271 `is_full` (release build: the debug assertion is not modelled). -/
def isFull (legacy : Option Nat) (numRows : Nat) : Bool :=
  match legacy with
  | some b => b == numRows
  | none => false

/-- updater.rs:306-328, the loop of `deleted_batch_offsets_in_range`: the offsets to fill, the ids left over and
whether the iterator ran out.  Unbounded numbers for `u32` (a fragment has fewer than 2^32 rows); the subtraction
`next_deleted_id - first_row_id` never underflows because ids below the current row have been handed out
(`offsetsLoop_spec` needs it as a hypothesis, the run lemmas supply it). -/
def offsetsLoop (legacy : Option Nat) (first : Nat) : List Nat → Nat → List Nat × List Nat × Bool
  | [], _ => ([], [], true)
  | d :: ds, n =>
    if d > first + n ∨ (d = first + n ∧ isFull legacy n = true) then ([], d :: ds, false)
    else
      let r := offsetsLoop legacy first ds (n + 1)
      ((d - first) :: r.1, r.2)

/-- updater.rs:289-329 `deleted_batch_offsets_in_range`. -/
def deletedOffsets (r : Restorer) (numRows : Nat) : List Nat × Restorer :=
  if r.exhausted then ([], r)
  else
    let x := offsetsLoop r.legacy r.current r.pending numRows
    (x.1, { r with pending := x.2.1, exhausted := x.2.2 })

/-- updater.rs:375-387, the selection vector: positions in the batch, 0 for the deleted rows. -/
def selection (len : Nat) : List Nat → Nat → Nat → List Nat
  | [], _, pos => List.range' pos (len - pos)
  | o :: os, next, pos =>
    List.range' pos (o - next) ++ 0 :: selection len os (o + 1) (pos + (o - next))

/-- updater.rs:359-406 `add_blanks`; an index out of bounds in `take` panics. -/
def addBlanks {β : Type} (batch : List β) (offs : List Nat) : Except Err (List β) :=
  if offs.isEmpty then .ok batch
  else if batch.isEmpty then .error .tooManyMissing
  else
    match (selection batch.length offs 0 0).mapM (fun i => batch[i]?) with
    | some out => .ok out
    | none => .error .panic

/-- updater.rs:337-351: the check of the batch size of v1 files. -/
def sizeOk (r : Restorer) (rows : Nat) : Bool :=
  match r.legacy with
  | some b => rows == b || r.exhausted
  | none => true

/-- updater.rs:331-355 `restore`. -/
def restore {β : Type} (r : Restorer) (batch : List β) : Except Err (List β × Restorer) :=
  let x := deletedOffsets r batch.length
  match addBlanks batch x.1 with
  | .error e => .error e
  | .ok out =>
    if sizeOk x.2 out.length then .ok (out, { x.2 with current := x.2.current + out.length })
    else .error .batchSize

/-! ## The updater -/

/-- updater.rs:106-129 `next`, 156-204 `update`, and the loop of their callers (fragment.rs:1464-1467): `compute` is
what the caller does with a batch, the result is what the writer was given. -/
def updateLoop {α β : Type} (compute : List α → Except Err (List β)) : Restorer → List (List α) →
    Except Err (List β)
  | r, [] => if r.exhausted then .ok [] else .error .tooManyMissing
  | r, b :: bs =>
    match compute b with
    | .error e => .error e
    | .ok v =>
      if b.length ≠ v.length then .error .sizeDiffers
      else
        match restore r v with
        | .error e => .error e
        | .ok (out, r') =>
          match updateLoop compute r' bs with
          | .error e => .error e
          | .ok rest => .ok (out ++ rest)

/-- fragment.rs:1389-1396: the deletion vector handed to the updater. -/
def deletedOf (dv : Option DV) : List Nat :=
  match dv with
  | some d => d.sortedIter
  | none => []

/-- fragment.rs:1348-1399 `updater`, updater.rs:59-95 `try_new` and a full run: the rows of the new data file of a
fragment.  `split` cuts the physical rows into batches (72-81: the row group size for v1 files, the batch size for
v2 files). -/
def runUpdater {α β : Type} (split : List α → List (List α)) (legacy : Option Nat) (opts : Opts) (f : Frag α)
    (compute : List (Row α) → Except Err (List β)) : Except Err (List β) :=
  match readAll split f opts with
  | none => .error .read
  | some bs => updateLoop compute (Restorer.new (deletedOf f.dv) legacy) bs

/-! ## The hash join -/

/-- The right table: batches of rows, each a key (`none` is null) and the values of the other columns (`none` is
null), and for every other column whether its type may hold nulls (datatypes.rs:375-385 `lance_supports_nulls`).
`keyType` stands for the type of the key column. -/
structure RightTable (K V : Type) where
  batches : List (List (Option K × List (Option V)))
  nullable : List Bool
  keyType : Nat

/-- hash_joiner.rs:89-91 `map.insert`: the last insert wins. -/
def insertKey {K : Type} [DecidableEq K] (m : Option K → Option (Nat × Nat)) (k : Option K) (ix : Nat × Nat) :
    Option K → Option (Nat × Nat) :=
  fun k' => if k' = k then some ix else m k'

/-- The row of the right table at (batch, row). -/
def RightTable.row {K V : Type} (r : RightTable K V) (ix : Nat × Nat) : Option (Option K × List (Option V)) :=
  (r.batches[ix.1]?).bind (fun b => b[ix.2]?)

/-- hash_joiner.rs:81-102: the map after inserting the rows in the given order; `order` is the order in which the
concurrent tasks performed their inserts. -/
def buildMap {K V : Type} [DecidableEq K] (r : RightTable K V) : List (Nat × Nat) →
    (Option K → Option (Nat × Nat)) → Option K → Option (Nat × Nat)
  | [], m => m
  | ix :: order, m =>
    match r.row ix with
    | some row => buildMap r order (insertKey m row.1 ix)
    | none => buildMap r order m

/-- hash_joiner.rs:23-31 `HashJoiner`. -/
structure Joiner (K V : Type) where
  map : Option K → Option (Nat × Nat)
  right : RightTable K V

/-- hash_joiner.rs:43-118 `try_new`.  A right table with nothing but the key column panics at line 75
(`RecordBatch::try_new` of no columns is an error, unwrapped). -/
def joinerNew {K V : Type} [DecidableEq K] (r : RightTable K V) (order : List (Nat × Nat)) :
    Except Err (Joiner K V) :=
  if r.batches.isEmpty then .error .noData
  else if r.nullable.isEmpty then .error .panic
  else .ok { map := buildMap r order (fun _ => none), right := r }

/-- hash_joiner.rs:148-177, one row of the result of `interleave`: the right row found, or nulls. -/
def fetch {K V : Type} (j : Joiner K V) (k : Option K) : Option (List (Option V)) :=
  match j.map k with
  | some ix => (j.right.row ix).map (·.2)
  | none => some (j.right.nullable.map (fun _ => none))

/-- hash_joiner.rs:186: a null in a column whose type does not hold nulls. -/
def badNull {V : Type} (nullable : List Bool) (row : List (Option V)) : Bool :=
  (nullable.zip row).any (fun x => !x.1 && x.2.isNone)

/-- hash_joiner.rs:130-208 `collect`, by rows instead of by columns. -/
def collect {K V : Type} (j : Joiner K V) (keyType : Nat) (keys : List (Option K)) :
    Except Err (List (List (Option V))) :=
  if keyType ≠ j.right.keyType then .error .keyType
  else
    match keys.mapM (fetch j) with
    | none => .error .panic
    | some rows => if rows.any (badNull j.right.nullable) then .error .nulls else .ok rows

/-- fragment.rs:1461-1472 `merge` after 1446 `HashJoiner::try_new`: the rows of the new data file.  `keyOf` reads the
join column (or the row id or address). -/
def mergeFragment {α K V : Type} [DecidableEq K] (split : List α → List (List α)) (legacy : Option Nat) (opts : Opts)
    (f : Frag α) (keyOf : Row α → Option K) (keyType : Nat) (r : RightTable K V) (order : List (Nat × Nat)) :
    Except Err (List (List (Option V))) :=
  match joinerNew r order with
  | .error e => .error e
  | .ok j => runUpdater split legacy opts f (fun b => collect j keyType (b.map keyOf))

end Verif.Join
