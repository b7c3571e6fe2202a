import Verif.Prefilter.PropsMask
import Verif.Expr.PropsFilter

/-!
# Scans that use scalar indices

Models `Scanner::create_plan` as far as filters are concerned (`rust/lance/src/dataset/scanner.rs` 1262-1300,
1352-1420, 1451-1458), `fragments_covered_by_index_query` and `scalar_indexed_scan` (scanner.rs 1838-1962),
`MaterializeIndexExec` (`rust/lance/src/io/exec/scalar_index.rs` 316-545) and the conversion of index queries back to
filters (`rust/lance-index/src/scalar.rs` 355-400, 427-470, `scalar/expression.rs` 420-435).
-/
namespace Verif.Iscan
open Verif
open Verif.RowSet (TreeMap Mask newFromParts)
open Verif.Deletion (DV)
open Verif.Expr
open Verif.Scalar (LinOrd Bd LQuery)

variable {V : Type}

/-- A fragment: its id, its physical rows, its deletion vector, its row ids (only used with stable row ids), and
whether `physical_rows` is recorded. -/
structure Frag (V : Type) where
  id : Nat
  rows : List (Env V)
  dv : Option DV
  seq : RowIds.Seq
  counted : Bool

/-- What the deletion mask looks at. -/
def Frag.pf (f : Frag V) : Prefilter.PFrag := ⟨f.id, f.dv, f.seq⟩

/-- Is the row at this offset deleted? -/
def Frag.deleted (f : Frag V) (o : Nat) : Bool :=
  match f.dv with
  | none => false
  | some d => d.contains o

/-- The value of `_rowid`: the stable row id or the address (C28). -/
def Frag.key (stable : Bool) (f : Frag V) (o : Nat) : Nat :=
  if stable then (RowIds.Seq.iter f.seq).getD o 0 else newFromParts f.id o

/-- The rows that a scan of the fragment returns, with their `_rowid`s (that a scan returns these is C28 and C62). -/
def Frag.live (stable : Bool) (f : Frag V) : List (Nat × Env V) :=
  (f.rows.zipIdx.filter (fun r => !f.deleted r.2)).map (fun r => (f.key stable r.2, r.1))

/-- scalar.rs:355-400 `SargableQuery::to_expr`.  An unbounded range is the literal `true`, which is a NULL test that
always holds here; the planner never makes one. -/
def queryExpr (c : Nat) : SQuery V → Expr V
  | .range .unb .unb => .isNull (.lit none)
  | .range .unb (.incl u) => .cmp .le (.col c) (.lit u)
  | .range .unb (.excl u) => .cmp .lt (.col c) (.lit u)
  | .range (.incl l) .unb => .cmp .ge (.col c) (.lit l)
  | .range (.incl l) (.incl u) => .between (.col c) (.lit l) (.lit u) false
  | .range (.incl l) (.excl u) => .and (.cmp .ge (.col c) (.lit l)) (.cmp .lt (.col c) (.lit u))
  | .range (.excl l) .unb => .cmp .gt (.col c) (.lit l)
  | .range (.excl l) (.incl u) => .and (.cmp .gt (.col c) (.lit l)) (.cmp .le (.col c) (.lit u))
  | .range (.excl l) (.excl u) => .and (.cmp .gt (.col c) (.lit l)) (.cmp .lt (.col c) (.lit u))
  | .isIn ws => .inList (.col c) (ws.map .lit) false
  | .isNull => .isNull (.col c)
  | .equals w => .cmp .eq (.col c) (.lit w)

/-- scalar.rs:427-470 `LabelListQuery::to_expr`.  (It panics on a NULL label; C92 leaves these out.) -/
def labelExpr (c : Nat) : LQuery V → Expr V
  | .hasAll ls => .hasAll c ls
  | .hasAny ls => .hasAny c ls

/-- expression.rs:420-435 `ScalarIndexExpr::to_expr`. -/
def toExpr : IxExpr V → Expr V
  | .not e => .not (toExpr e)
  | .and l r => .and (toExpr l) (toExpr r)
  | .or l r => .or (toExpr l) (toExpr r)
  | .query c q => queryExpr c q
  | .labels c q => labelExpr c q

/-- scanner.rs:1838-1861 `fragments_covered_by_index_query`; `cover` is the fragment bitmap of the index on a column. -/
def covered (cover : Nat → List Nat) : IxExpr V → List Nat
  | .and l r => (covered cover l).filter (fun x => (covered cover r).contains x)
  | .or l r => (covered cover l).filter (fun x => (covered cover r).contains x)
  | .not e => covered cover e
  | .query c _ => cover c
  | .labels c _ => cover c

/-- scalar_index.rs:331-361 `FragIdIter`: all addresses of the fragments, in order. -/
def fragIds (frags : List (Frag V)) : List Nat :=
  frags.flatMap (fun f => (List.range f.rows.length).map (newFromParts f.id))

/-- scalar_index.rs:520-532: the row ids of the fragments as one row set; `none` is a panic. -/
def seqSets : List (Frag V) → TreeMap → Option TreeMap
  | [], m => some m
  | f :: fs, m => match RowIds.Seq.toTreeMap f.seq with
    | none => none
    | some s => seqSets fs (RowSet.or m s)

/-- scalar_index.rs:515-541 `retain_fragments`.  `arrive` are the fragments in the order in which their row id
sequences were loaded. -/
def retain (stable : Bool) (frags arrive : List (Frag V)) (allow : TreeMap) : Option TreeMap :=
  if stable then (seqSets arrive []).map (RowSet.and allow)
  else some (RowSet.retainFragments allow (frags.map (·.id)))

/-- The row ids of the fragments in the order in which their sequences were loaded. -/
def seqIds (arrive : List (Frag V)) : List Nat := arrive.flatMap (fun f => RowIds.Seq.iter f.seq)

/-- scalar_index.rs:426-512 `row_ids_for_mask`; `none` is a panic.  (`capacity -= len` on a `usize` panics in a debug
build; in a release build it wraps around and the allocation panics.) -/
def rowIdsForMask (stable : Bool) (frags arrive : List (Frag V)) (m : Mask) : Option (List Nat) :=
  match m.allow, m.block with
  | none, none => if stable then some (seqIds arrive) else some (fragIds frags)
  | some a, none =>
    (retain stable frags arrive a).bind (fun a =>
      match RowSet.rowIds a with
      | some ids => some ids
      | none => some ((fragIds frags).filter (fun v => RowSet.contains a v)))
  | none, some b =>
    if stable then
      match RowSet.len b with
      | none => none
      | some n =>
        if n ≤ (seqIds arrive).length then some ((seqIds arrive).filter (fun v => !RowSet.contains b v)) else none
    else some ((fragIds frags).filter (fun v => !RowSet.contains b v))
  | some a, some b =>
    (retain stable frags arrive a).bind (fun a =>
      match RowSet.rowIds a with
      | some ids => some (ids.filter (fun v => !RowSet.contains b v))
      | none => some ((fragIds frags).filter (fun v => !RowSet.contains b v && RowSet.contains a v)))

/-- scalar_index.rs:383-424 `MaterializeIndexExec::do_execute`.  `order`: the order in which deletion vectors are
loaded. -/
def materialize (stable : Bool) (ds frags arrive : List (Frag V)) (order : List Nat) (X : Indices V) (q : IxExpr V) :
    Option (List Nat) :=
  (evaluate X q).bind (fun m =>
    match Prefilter.deletionMask stable (ds.map Frag.pf) (frags.map (·.id)) order with
    | .none => rowIdsForMask stable frags arrive m
    | .mask d => rowIdsForMask stable frags arrive (RowSet.maskAnd m d)
    | .panic => none)

/-- The row with this id (`TakeExec`; that it finds the row is C31).  `none`: there is no such row, the take fails. -/
def findRow (stable : Bool) (ds : List (Frag V)) (v : Nat) : Option (Nat × Env V) :=
  (ds.flatMap (Frag.live stable)).find? (fun r => r.1 == v)

/-- The rows with these ids. -/
def takeRows (stable : Bool) (ds : List (Frag V)) : List Nat → Option (List (Nat × Env V))
  | [] => some []
  | v :: vs => match findRow stable ds v, takeRows stable ds vs with
    | some r, some rs => some (r :: rs)
    | _, _ => none

/-- A `FilterExec` keeps the rows on which the filter is true. -/
def keep [LinOrd V] [DecidableEq V] (ofBool : Bool → V) (e : Expr V) (rows : List (Nat × Env V)) :
    List (Nat × Env V) := rows.filter (fun r => e.eval ofBool r.2 == some true)

/-- How the parts of a scan arrive: the deletion vectors and the row id sequences of the indexed fragments. -/
structure Sched (V : Type) where
  order : List Nat
  arrive : List (Frag V)

/-- scanner.rs:1865-1962 `scalar_indexed_scan`: rows of fragments covered by all indices by way of the indices, the
others by a scan with the index query as a filter.  The union is concatenated here (the order is not specified). -/
def indexedScan [LinOrd V] [DecidableEq V] (ofBool : Bool → V) (stable : Bool) (ds req : List (Frag V))
    (cover : Nat → List Nat) (X : Indices V) (s : Sched V) (q : IxExpr V) : Option (List (Nat × Env V)) :=
  let cov := covered cover q
  let relevant := req.filter (fun f => cov.contains f.id)
  let missing := req.filter (fun f => !cov.contains f.id)
  ((materialize stable ds relevant s.arrive s.order X q).bind (takeRows stable ds)).map (fun rows =>
    rows ++ keep ofBool (toExpr q) (missing.flatMap (Frag.live stable)))

/-- scanner.rs:1262-1300, 1352-1420, 1451-1458: the rows that a scan with a filter returns.  `req` are the fragments
chosen by the user; without a choice all fragments are scanned.  Projection, order and limits are left out, and so is
the pushdown of filters to page statistics (C72). -/
def filteredScan [LinOrd V] [DecidableEq V] (I : Info V) (useIndex stable : Bool) (ds : List (Frag V))
    (chosen : Option (List (Frag V))) (cover : Nat → List Nat) (X : Indices V) (s : Sched V) (e : Expr V) :
    Option (List (Nat × Env V)) :=
  let req := chosen.getD ds
  let plan := filterPlan I useIndex e
  let plan := if plan.query.isSome && req.any (fun f => !f.counted) then filterPlan I false e else plan
  let rows := match plan.query with
    | some q => indexedScan I.ofBool stable ds req cover X s q
    | none => some (req.flatMap (Frag.live stable))
  match plan.refine with
  | none => rows
  | some r => rows.map (keep I.ofBool r)

end Verif.Iscan
