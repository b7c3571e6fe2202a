import Verif.Merge.Model
import Verif.Join.Model

/-!
# Merge insert with some of the columns

Models `rust/lance/src/dataset/write/merge_insert.rs` (614-632, 666-995 `update_fragments`, 1048-1068) and the grouping
of a sorted stream, `rust/lance-datafusion/src/dataframe.rs` (58-237).
-/
namespace Verif.Merge
open Verif
open Verif.Read (Frag Row Opts Cell scanV2 readAll)
open Verif.Update (idValue newFrags commitUpdate)
open Verif.Join (updateLoop Restorer deletedOf)

/-! ## Grouping a stream -/

/-- dataframe.rs:127-137 `compute_ranges`: the maximal runs of equal keys in a batch, cut out. -/
def runs {K β : Type} [DecidableEq K] : List (K × β) → List (K × List β)
  | [] => []
  | (k, b) :: l =>
    match runs l with
    | [] => [(k, [b])]
    | (k', bs) :: rest => if k = k' then (k, b :: bs) :: rest else (k, [b]) :: (k', bs) :: rest

/-- dataframe.rs:68-82 `BatchStreamGrouper`; `unprocessed` in the order of the stream (the code keeps it reversed and
pops), empty for `None`. -/
structure Grouper (K β : Type) where
  current : Option K
  buffer : List (List β)
  unprocessed : List (K × List β)

/-- dataframe.rs:147-163, first half of `fill_buffer`: the next range joins the group. -/
def Grouper.pull {K β : Type} [DecidableEq K] (g : Grouper K β) : Grouper K β :=
  match g.unprocessed with
  | [] => g
  | (k, b) :: us =>
    match g.current with
    | some c => if c = k then { g with buffer := g.buffer ++ [b], unprocessed := us } else g
    | none => { current := some k, buffer := g.buffer ++ [b], unprocessed := us }

/-- dataframe.rs:165-175, second half: a group is complete if there is more. -/
def Grouper.emit {K β : Type} (g : Grouper K β) : Option (K × List (List β)) × Grouper K β :=
  match g.current, g.unprocessed with
  | some c, _ :: _ => (some (c, g.buffer), { g with current := none, buffer := [] })
  | _, _ => (none, g)

/-- dataframe.rs:208-236 `poll_next` until the end of the stream.  A batch without rows panics (179-183: `last().unwrap()`
of no ranges): `none`.  The first argument bounds the number of steps; `groupStream` gives enough
(`pollAll_spec`). -/
def pollAll {K β : Type} [DecidableEq K] : Nat → Grouper K β → List (List (K × β)) → Option (List (K × List (List β)))
  | 0, _, _ => none
  | n + 1, g, input =>
    match g.pull.emit with
    | (some out, g') => (pollAll n g' input).map (fun l => out :: l)
    | (none, g') =>
      match input with
      | b :: rest => if b.isEmpty then none else pollAll n { g' with unprocessed := runs b } rest
      | [] =>
        match g'.current with
        | some c => some [(c, g'.buffer)]
        | none => some []

/-- dataframe.rs:22-55 `group_by_stream`, all of it. -/
def groupStream {K β : Type} [DecidableEq K] (input : List (List (K × β))) : Option (List (K × List (List β))) :=
  pollAll ((input.map (fun b => b.length + 1)).sum + 1) ⟨none, [], []⟩ input

/-! ## Some of the columns -/

/-- The cells of some columns. -/
def proj {V : Type} (cols : List Nat) (t : Tuple V) : Tuple V := cols.map (fun c => t.getD c none)

/-- The cell a source row has for a column of the table; null if the column is not in the source. -/
def srcVal {V : Type} (cols : List Nat) (s : Tuple V) (c : Nat) : Option V := ((cols.zip s).lookup c).getD none

/-- The row that is read when only the columns `cols` were written. -/
def wide {V : Type} (cols : List Nat) (width : Nat) (s : Tuple V) : Tuple V := (List.range width).map (srcVal cols s)

/-- The row that is read when the columns `cols` are in a newer file and the same columns of older files are tombstoned
(see `tombstone`). -/
def overlay {V : Type} (cols : List Nat) (s t : Tuple V) : Tuple V :=
  t.zipIdx.map (fun x => if cols.contains x.2 then srcVal cols s x.2 else x.1)

/-- What the environment decides.  `order` sorts the written rows by row address, nulls first, and cuts them into batches
(679: `sort`, DataFusion); `done` is the order in which fragments are finished; the others as in `Env`. -/
structure PEnv (V : Type) where
  split : List (Tuple V) → List (List (Tuple V))
  legacy : Option Nat
  shuffle : List (JRow V) → List (List (JRow V))
  order : List (Option Nat × Tuple V) → List (List (Option Nat × Tuple V))
  files : List (Tuple V) → List (List (Tuple V))
  done : List (Frag (Tuple V)) → List (Frag (Tuple V))
  seen : Option (List (Row (Tuple V)) → List (Row (Tuple V)))

/-- A join of which the unmatched rows of each side may be left out.  `tcols` is the order of the target columns in the
joined rows; the row address takes the place of the row id, which is not used (1319-1324). -/
def partJoin {V : Type} [DecidableEq V] (nullEq keepLeft keepRight : Bool) (on cols tcols : List Nat) (width : Nat)
    (src : List (Tuple V)) (tgt : List (Row (Tuple V))) : List (JRow V) :=
  src.flatMap (fun s => (tgt.filter (fun t => joins nullEq on (wide cols width s) t.data)).map
    (fun t => ⟨s, proj tcols t.data, some (idValue t.addr)⟩)) ++
  ((if keepLeft then (src.filter (fun s => !tgt.any (fun t => joins nullEq on (wide cols width s) t.data))).map
      (fun s => ⟨s, nulls V cols.length, none⟩) else []) ++
   (if keepRight then (tgt.filter (fun t => !src.any (fun s => joins nullEq on (wide cols width s) t.data))).map
      (fun t => ⟨nulls V cols.length, proj tcols t.data, some (idValue t.addr)⟩) else []))

/-- merge_insert.rs:644-664 with 614-632 and 410-548: without index a left or inner join, the target columns in the order
of the source; with index a full join, the target columns in the order of the table (461-467, 473-487). -/
def joinedPart {V : Type} [DecidableEq V] (env : PEnv V) (p : Params V) (cols : List Nat) (width : Nat)
    (src : List (Tuple V)) (tgt : List (Row (Tuple V))) : List (JRow V) :=
  match env.seen with
  | some seen =>
    if p.on.length = 1 then
      partJoin true true true p.on cols ((List.range width).filter (fun c => cols.contains c)) width src (seen tgt)
    else partJoin false p.insert false p.on cols cols width src tgt
  | none => partJoin false p.insert false p.on cols cols width src tgt

/-- merge_insert.rs:1304-1402 with a row address column: the rows for `update_fragments` and the statistics.
`UpdateIf` panics on the first batch: `unzip_batch` (104-125) divides an even number of columns as if it were odd, and
`StructArray::new` refuses. -/
def mergePart {V : Type} (p : Params V) (bs : List (List (JRow V))) : Option (List (Option Nat × Tuple V) × Stats) :=
  match p.matched, bs with
  | .updateIf _, _ :: _ => none
  | _, _ => some (bs.flatMap (fun b => (matchedRows p b).map (fun j => (j.id, j.left)) ++
      (insertedRows p b).map (fun j => (j.id, j.left))),
    ⟨(bs.map (fun b => (insertedRows p b).length)).sum, (bs.map (fun b => (matchedRows p b).length)).sum, 0⟩)

/-! ## One fragment -/

/-- merge_insert.rs:820-841: the rows of a batch of the fragment, replaced where the next update has the same address.
The debug assertion at 833 is not modelled (release build): an update whose address has been passed stays at the head of
the iterator for good. -/
def interleave {β : Type} : List (Nat × β) → List (Nat × β) → List β × List (Nat × β)
  | ups, [] => ([], ups)
  | [], (_, old) :: rows => let r := interleave [] rows; (old :: r.1, r.2)
  | (u, v) :: ups, (a, old) :: rows =>
    if u = a then let r := interleave ups rows; (v :: r.1, r.2)
    else let r := interleave ((u, v) :: ups) rows; (old :: r.1, r.2)

/-- merge_insert.rs:785-847: batch after batch of the fragment. -/
def interleaveBatches {β : Type} : List (Nat × β) → List (List (Nat × β)) → List (List β)
  | _, [] => []
  | ups, b :: bs =>
    let r := interleave ups b
    r.1 :: interleaveBatches r.2 bs

/-- merge_insert.rs:692-853 `handle_fragment`: the rows of the new data file.  If there are as many updates as physical
rows, they are the new file (709-764); else they are interleaved with the rows of the fragment and go through the updater
(`Verif.Join`; the batches given to `update` have as many rows as those read).  `none` is an error. -/
def handleFragment {V : Type} (env : PEnv V) (cols : List Nat) (f : Frag (Tuple V)) (ups : List (Nat × Tuple V)) :
    Option (List (Tuple V)) :=
  if ups.length = f.rows then some (ups.map (·.2))
  else
    match readAll env.split f ⟨false, true, false⟩ with
    | none => none
    | some bs =>
      match updateLoop (fun b => .ok b) (Restorer.new (deletedOf f.dv) env.legacy)
          (interleaveBatches ups (bs.map (List.map (fun r => (idValue r.addr, proj cols r.data))))) with
      | .ok out => some out
      | .error _ => none

/-- The fragment with the new data file. -/
def withColumns {V : Type} (cols : List Nat) (f : Frag (Tuple V)) (out : List (Tuple V)) : Frag (Tuple V) :=
  { f with file := fun off => overlay cols (out.getD off []) (f.file off) }

/-- merge_insert.rs:975-987: the fields of older files that are in the newest file are tombstoned. -/
def tombstone (files : List (List Int)) : List (List Int) :=
  match files.getLast? with
  | none => []
  | some newest => files.dropLast.map (List.map (fun x => if newest.contains x then -2 else x)) ++ [newest]

/-! ## All of it -/

/-- merge_insert.rs:923-963: what one group gives: an updated fragment, or rows of new fragments. -/
def handleGroup {V : Type} (env : PEnv V) (cols : List Nat) (frags : List (Frag (Tuple V)))
    (g : Option Nat × List (List (Nat × Tuple V))) : Option (List (Frag (Tuple V)) × List (Tuple V)) :=
  match g.1 with
  | none => some ([], g.2.flatten.map (·.2))
  | some id =>
    match frags.find? (fun f => f.id == id) with
    | none => none
    | some f =>
      match handleFragment env cols f g.2.flatten with
      | none => none
      | some out => some ([withColumns cols f out], [])

/-- The groups one after the other. -/
def handleGroups {V : Type} (env : PEnv V) (cols : List Nat) (frags : List (Frag (Tuple V))) :
    List (Option Nat × List (List (Nat × Tuple V))) → Option (List (Frag (Tuple V)) × List (Tuple V))
  | [] => some ([], [])
  | g :: gs =>
    match handleGroup env cols frags g, handleGroups env cols frags gs with
    | some a, some b => some (a.1 ++ b.1, a.2 ++ b.2)
    | _, _ => none

/-- merge_insert.rs:678: `_rowaddr >> 32` of a row (null stays null), with the row; the value of a null address is taken
as 0, it is not looked at. -/
def keyed {V : Type} (x : Option Nat × Tuple V) : Option Nat × (Nat × Tuple V) :=
  (x.1.map (· / 4294967296), (x.1.getD 0, x.2))

/-- merge_insert.rs:1022-1068 for a source with the columns `cols` (any order), with the commit; no concurrent commit. -/
def executePart {V : Type} [DecidableEq V] (env : PEnv V) (p : Params V) (cols : List Nat) (width : Nat)
    (src : List (Tuple V)) (frags : List (Frag (Tuple V))) (nextId : Nat) (nextRow : Option Nat) : Result V :=
  if !p.valid then .error
  else
    match p.bySource with
    | .delete => .error
    | .deleteIf _ => .error
    | .keep =>
      match scanV2 env.split ⟨true, true, false⟩ frags none with
      | none => .error
      | some tgt =>
        match mergePart p (env.shuffle (joinedPart env p cols width src tgt)) with
        | none => .error
        | some (written, stats) =>
          match groupStream ((env.order written).map (List.map keyed)) with
          | none => .error
          | some gs =>
            match handleGroups env cols frags gs with
            | none => .error
            | some r => .ok (commitUpdate frags [] (env.done r.1)
                (newFrags nextId nextRow (env.files (r.2.map (wide cols width))))) stats

end Verif.Merge
