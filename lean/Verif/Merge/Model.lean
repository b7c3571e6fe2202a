import Verif.Update.Model

/-!
# Merge insert

Models `rust/lance/src/dataset/write/merge_insert.rs`: the options (131-227, 266-345), the two ways of joining (410-548,
583-664), the selections and the merger (1159-1439) and the commit (1022-1155, shared with `Verif.Update`).  This file is
the path for sources with all columns; `Partial.lean` has the path for sources with some of the columns.
-/
namespace Verif.Merge
open Verif
open Verif.Read (Frag Row Opts Cell scanV2)
open Verif.Update (idValue applyDeletions newFrags commitUpdate)

/-- A row; a cell is null or holds a value. -/
abbrev Tuple (V : Type) := List (Option V)

/-- merge_insert.rs:170-182 `WhenMatched`; the condition sees source and target row (96-123) and is three-valued. -/
inductive WhenMatched (V : Type) where
  | updateAll
  | doNothing
  | updateIf (p : Tuple V → Tuple V → Option Bool)

/-- merge_insert.rs:131-143 `WhenNotMatchedBySource`. -/
inductive BySource (V : Type) where
  | keep
  | delete
  | deleteIf (p : Tuple V → Option Bool)

/-- merge_insert.rs:218-227 `MergeInsertParams`; `on` are column numbers. -/
structure Params (V : Type) where
  on : List Nat
  matched : WhenMatched V
  insert : Bool
  bySource : BySource V

/-- merge_insert.rs:332-345 `try_build` (and 288-294): whether the job does anything. -/
def Params.valid {V : Type} (p : Params V) : Bool :=
  !p.on.isEmpty &&
  match p.insert, p.matched, p.bySource with
  | false, .doNothing, .keep => false
  | _, _, _ => true

/-- Equality of one key column in the join.  Nulls are equal to nulls if the join says so: `false` in
`DataFrame::join` (611), `true` in the `HashJoinExec` of the indexed path (537). -/
def keyEq {V : Type} [DecidableEq V] (nullEq : Bool) (s t : Tuple V) (c : Nat) : Bool :=
  match s.getD c none, t.getD c none with
  | some a, some b => decide (a = b)
  | none, none => nullEq
  | _, _ => false

/-- The join condition. -/
def joins {V : Type} [DecidableEq V] (nullEq : Bool) (on : List Nat) (s t : Tuple V) : Bool :=
  on.all (keyEq nullEq s t)

/-- A row of the joined stream: source columns, target columns, row id (merge_insert.rs:1311-1324). -/
structure JRow (V : Type) where
  left : Tuple V
  right : Tuple V
  id : Option Nat

/-- A side of an outer join without partner. -/
def nulls (V : Type) (width : Nat) : Tuple V := List.replicate width none

/-- merge_insert.rs:527-539, 604-612: the full outer join, in some order (the environment shuffles it). -/
def fullJoin {V : Type} [DecidableEq V] (nullEq : Bool) (on : List Nat) (width : Nat) (src : List (Tuple V))
    (tgt : List (Row (Tuple V))) : List (JRow V) :=
  src.flatMap (fun s => (tgt.filter (fun t => joins nullEq on s t.data)).map
    (fun t => ⟨s, t.data, some (idValue t.id)⟩)) ++
  ((src.filter (fun s => !tgt.any (fun t => joins nullEq on s t.data))).map (fun s => ⟨s, nulls V width, none⟩) ++
  (tgt.filter (fun t => !src.any (fun s => joins nullEq on s t.data))).map
    (fun t => ⟨nulls V width, t.data, some (idValue t.id)⟩))

/-- merge_insert.rs:1254-1268 `not_all_null`: looks at the first `num_keys` columns of a side, whatever the key columns
are (1290-1291 call it with the offset of the side and the number of keys). -/
def notAllNull {V : Type} (numKeys : Nat) (r : Tuple V) : Bool := (r.take numKeys).any (·.isSome)

/-- merge_insert.rs:1284-1297 `extract_selections`. -/
def leftOnly {V : Type} (k : Nat) (j : JRow V) : Bool := notAllNull k j.left && !notAllNull k j.right
def inBoth {V : Type} (k : Nat) (j : JRow V) : Bool := notAllNull k j.left && notAllNull k j.right
def rightOnly {V : Type} (k : Nat) (j : JRow V) : Bool := !notAllNull k j.left && notAllNull k j.right

/-- merge_insert.rs:1159-1169 `MergeStats`. -/
structure Stats where
  inserted : Nat
  updated : Nat
  deleted : Nat
deriving DecidableEq, Repr

/-- What the merger has done so far: rows for the writer, removed row ids (in the order they were added), statistics. -/
structure Acc (V : Type) where
  written : List (Tuple V)
  removed : List Nat
  stats : Stats

/-- merge_insert.rs:1338-1359: the matched rows that are updated. -/
def matchedRows {V : Type} (p : Params V) (b : List (JRow V)) : List (JRow V) :=
  match p.matched with
  | .doNothing => []
  | .updateAll => b.filter (inBoth p.on.length)
  | .updateIf c => (b.filter (inBoth p.on.length)).filter (fun j => c j.left j.right == some true)

/-- merge_insert.rs:1387-1402: the source rows that are inserted. -/
def insertedRows {V : Type} (p : Params V) (b : List (JRow V)) : List (JRow V) :=
  if p.insert then b.filter (leftOnly p.on.length) else []

/-- merge_insert.rs:1403-1434: the target rows that are deleted. -/
def deletedRows {V : Type} (p : Params V) (b : List (JRow V)) : List (JRow V) :=
  match p.bySource with
  | .keep => []
  | .delete => b.filter (rightOnly p.on.length)
  | .deleteIf c => (b.filter (rightOnly p.on.length)).filter (fun j => c j.right == some true)

/-- The values of the row id column (`values()` of a null slot is taken as 0; the rows here have row ids). -/
def idsOf {V : Type} (b : List (JRow V)) : List Nat := b.map (fun j => j.id.getD 0)

/-- merge_insert.rs:1304-1438 `execute_batch`. -/
def execBatch {V : Type} (p : Params V) (acc : Acc V) (b : List (JRow V)) : Acc V :=
  { written := acc.written ++ ((matchedRows p b).map (·.left) ++ (insertedRows p b).map (·.left))
    removed := acc.removed ++ (idsOf (matchedRows p b) ++ idsOf (deletedRows p b))
    stats :=
      { inserted := acc.stats.inserted + (insertedRows p b).length
        updated := acc.stats.updated + (matchedRows p b).length
        deleted := acc.stats.deleted + (deletedRows p b).length } }

/-- The result of the job. -/
inductive Result (V : Type) where
  | error
  | ok (frags : List (Frag (Tuple V))) (stats : Stats)

/-- What the environment decides: how files are cut into batches, how the joined rows are ordered and cut, how the new
rows are cut into files, in which order the deletion tasks finish.  `seen`: if there is a scalar index on the key
column, the target rows the index lookup (431-467) and the scan of unindexed fragments (493-515) bring up. -/
structure Env (V : Type) where
  split : List (Tuple V) → List (List (Tuple V))
  shuffle : List (JRow V) → List (List (JRow V))
  files : List (Tuple V) → List (List (Tuple V))
  sched : List (Frag (Tuple V)) → List (Frag (Tuple V))
  seen : Option (List (Row (Tuple V)) → List (Row (Tuple V)))

/-- merge_insert.rs:644-664 `create_joined_stream`: the index is used if nothing is deleted. -/
def joined {V : Type} [DecidableEq V] (env : Env V) (p : Params V) (width : Nat) (src : List (Tuple V))
    (tgt : List (Row (Tuple V))) : List (JRow V) :=
  match p.bySource, env.seen with
  | .keep, some seen => if p.on.length = 1 then fullJoin true p.on width src (seen tgt) else fullJoin false p.on width src tgt
  | _, _ => fullJoin false p.on width src tgt

/-- merge_insert.rs:1022-1155 with the commit: a source with all `width` columns; no concurrent commit.  The removed ids
go into a `RoaringTreemap` (a set). -/
def execute {V : Type} [DecidableEq V] (env : Env V) (p : Params V) (width : Nat) (src : List (Tuple V))
    (frags : List (Frag (Tuple V))) (nextId : Nat) (nextRow : Option Nat) : Result V :=
  if !p.valid then .error
  else
    match scanV2 env.split ⟨true, false, false⟩ frags none with
    | none => .error
    | some tgt =>
      let acc := (env.shuffle (joined env p width src tgt)).foldl (execBatch p) ⟨[], [], ⟨0, 0, 0⟩⟩
      match applyDeletions (Bm.ofList acc.removed) (env.sched frags) with
      | none => .error
      | some r => .ok (commitUpdate frags r.2 r.1 (newFrags nextId nextRow (env.files acc.written))) acc.stats

end Verif.Merge
