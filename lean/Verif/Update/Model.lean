import Verif.Read.Model

/-!
# Updating rows

Models `rust/lance/src/dataset/write/update.rs` (222-372 `UpdateJob::execute`, `apply_updates`, `apply_deletions`), the
capture of row ids in `rust/lance/src/dataset/utils.rs` (16-75), `extend_deletions` of `fragment.rs` (1566-1617, in
`Verif.Deletion`) and the `Update` operation of `build_manifest` (`transaction.rs` 697-718, 913).  `apply_deletions` of
`merge_insert.rs` (1106-1155) is the same text as that of `update.rs` and shares the definitions below.
-/
namespace Verif.Update
open Verif
open Verif.Read (Frag Row Opts Cell Scanner runScan)
open Verif.Deletion (DV extendDeletions)
open Verif.RowIds (Seq)

scoped notation "U32" => 4294967296

/-! ## Removing rows and committing -/

/-- utils.rs:35 `RoaringTreemap::append` (roaring crate): the ids must come in strictly increasing order, above all that
were appended before; `none` is the error of line 36. -/
def append (captured : List Nat) : List Nat → Option (List Nat)
  | [] => some captured
  | i :: is =>
    match captured.getLast? with
    | some m => if i ≤ m then none else append (captured ++ [i]) is
    | none => append [i] is

/-- The value in a `_rowid` column (utils.rs:22-34); the column is never null here. -/
def idValue : Cell → Nat
  | .val n => n
  | _ => 0

/-- utils.rs:53-75 `make_rowid_capture_stream`: batch after batch; what is left of the batches is the data. -/
def capture {α : Type} (captured : List Nat) : List (List (Row α)) → Option (List Nat × List (List α))
  | [] => some (captured, [])
  | b :: bs =>
    match append captured (b.map (fun r => idValue r.id)) with
    | none => none
    | some c =>
      match capture c bs with
      | none => none
      | some r => some (r.1, b.map (·.data) :: r.2)

/-- update.rs:325, 341: the part of the removed ids whose upper 32 bits are the fragment id (`fragment_id as u32`);
a `RoaringTreemap` keeps no empty bitmaps, so an empty list is a missing entry. -/
def bitmapOf (removed : List Nat) (frag : Nat) : List Nat :=
  (removed.filter (fun a => decide (a / U32 = frag % U32))).map (· % U32)

/-- update.rs:327-331 `FragmentChange`, with the error of `extend_deletions`. -/
inductive Change (α : Type) where
  | unchanged
  | modified (f : Frag α)
  | removed (id : Nat)
  | error

/-- update.rs:336-355: what happens to one fragment.  A bitmap knows its length (`size_hint`). -/
def fragChange {α : Type} (removed : List Nat) (f : Frag α) : Change α :=
  if (bitmapOf removed f.id).isEmpty then .unchanged
  else
    match extendDeletions ⟨f.id, f.rows, f.dv.getD .none⟩ (bitmapOf removed f.id).length
        (some (bitmapOf removed f.id).length) (bitmapOf removed f.id) with
    | .err => .error
    | .gone => .removed f.id
    | .keep g => .modified { f with dv := some g.dv }

/-- update.rs:333-371: the fragments in the order in which their tasks finish (`buffer_unordered`); the first error
ends it.  Updated fragments and ids of removed fragments. -/
def applyDeletions {α : Type} (removed : List Nat) : List (Frag α) → Option (List (Frag α) × List Nat)
  | [] => some ([], [])
  | f :: fs =>
    match fragChange removed f with
    | .error => none
    | .unchanged => applyDeletions removed fs
    | .modified g =>
      match applyDeletions removed fs with
      | none => none
      | some r => some (g :: r.1, r.2)
    | .removed i =>
      match applyDeletions removed fs with
      | none => none
      | some r => some (r.1, i :: r.2)

/-- A fragment just written: no deletions, its rows in order (its content is trusted to be what was written). -/
def mkFrag {α : Type} [Inhabited α] (id : Nat) (seq : Option Seq) (chunk : List α) : Frag α :=
  { id := id, rows := chunk.length, dv := none, seq := seq, file := fun o => chunk.getD o default }

/-- transaction.rs:712-717 with 532-546 and 1148-1162: the new fragments get the next fragment ids and, with stable
row ids, the next row ids. -/
def newFrags {α : Type} [Inhabited α] : Nat → Option Nat → List (List α) → List (Frag α)
  | _, _, [] => []
  | id, nr, c :: cs =>
    mkFrag id (nr.map (fun r => [.range r (r + c.length)])) c :: newFrags (id + 1) (nr.map (· + c.length)) cs

/-- transaction.rs:702-710: the first updated fragment with the same id. -/
def firstUpdated {α : Type} (ups : List (Frag α)) (f : Frag α) : Frag α :=
  (ups.find? (fun u => u.id == f.id)).getD f

/-- transaction.rs:697-718, 913: the fragments of the new version. -/
def commitUpdate {α : Type} (frags : List (Frag α)) (removed : List Nat) (ups new : List (Frag α)) : List (Frag α) :=
  sortBy (·.id) ((frags.filter (fun f => !removed.contains f.id)).map (firstUpdated ups) ++ new)

/-! ## UPDATE -/

/-- A row, by column number.  Cells may hold nulls; the type of cells is left open. -/
abbrev Tuple (V : Type) := List V

/-- update.rs:312 `expr.evaluate(&batch)`: trusted to evaluate row by row; `none` is an evaluation error. -/
def evalBatch {V : Type} (e : Tuple V → Option V) : List (Tuple V) → Option (List V)
  | [] => some []
  | r :: rs =>
    match e r, evalBatch e rs with
    | some v, some vs => some (v :: vs)
    | _, _ => none

/-- update.rs:313 `replace_column_by_name`. -/
def replaceColumn {V : Type} (c : Nat) (vals : List V) (batch : List (Tuple V)) : List (Tuple V) :=
  (batch.zip vals).map (fun x => x.1.set c x.2)

/-- update.rs:307-316 `apply_updates`: the columns one after the other, in the iteration order of the `HashMap`, each
expression on the batch as changed so far. -/
def applyUpdates {V : Type} : List (Nat × (Tuple V → Option V)) → List (Tuple V) → Option (List (Tuple V))
  | [], batch => some batch
  | (c, e) :: us, batch =>
    match evalBatch e batch with
    | none => none
    | some vals => applyUpdates us (replaceColumn c vals batch)

/-- update.rs:246-258: batch after batch, in order (`buffered`). -/
def updateBatches {V : Type} (us : List (Nat × (Tuple V → Option V))) : List (List (Tuple V)) → Option (List (Tuple V))
  | [] => some []
  | b :: bs =>
    match applyUpdates us b, updateBatches us bs with
    | some r, some rs => some (r ++ rs)
    | _, _ => none

/-- `UpdateResult` (update.rs:210-214), or an error. -/
inductive Result (α : Type) where
  | error
  | ok (frags : List (Frag α)) (rowsUpdated : Nat)

/-- What the environment decides: how files are cut into batches when read, how the filtered scan is cut into batches,
how the new rows are cut into files, the order in which the deletion tasks finish. -/
structure Env (V : Type) where
  split : List (Tuple V) → List (List (Tuple V))
  batch : List (Row (Tuple V)) → List (List (Row (Tuple V)))
  files : List (Tuple V) → List (List (Tuple V))
  sched : List (Frag (Tuple V)) → List (Frag (Tuple V))
  legacy : Bool

/-- update.rs:222-305 `UpdateJob::execute` and the manifest its commit builds (no concurrent commit).  `cond` is SQL's
three-valued condition: a row is selected if it is `some true`.  `nextId`: the first free fragment id, `nextRow`: the
first free row id if row ids are stable, `numRows`: as in `runScan`.  Not modelled: use of a scalar index by the scan
(C39), storage versions, blob columns. -/
def execute {V : Type} (env : Env V) (cond : Option (Tuple V → Option Bool)) (us : List (Nat × (Tuple V → Option V)))
    (frags : List (Frag (Tuple V))) (nextId : Nat) (nextRow : Option Nat) (numRows : Nat) : Result (Tuple V) :=
  match runScan env.split env.legacy ⟨cond.map (fun p r => p r == some true), none, none, none⟩ ⟨true, false, false⟩
      frags numRows with
  | none => .error
  | some rows =>
    match capture [] (env.batch rows) with
    | none => .error
    | some cap =>
      match updateBatches us cap.2 with
      | none => .error
      | some updated =>
        match applyDeletions cap.1 (env.sched frags) with
        | none => .error
        | some r =>
          .ok (commitUpdate frags r.2 r.1 (newFrags nextId nextRow (env.files updated)))
            ((newFrags nextId nextRow (env.files updated)).map (·.rows)).sum

end Verif.Update
