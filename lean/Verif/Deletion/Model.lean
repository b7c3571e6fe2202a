import Verif.Common.Bm

/-!
# Deletion vectors and live-row arithmetic

Models `rust/lance-core/src/utils/deletion.rs` (DeletionVector 16-122, OffsetMapper 138-182, Extend
217-262) and parts of `rust/lance/src/dataset/fragment.rs` (take 1175-1228, delete 1500-1564,
extend_deletions 1566-1581, write_deletions 1583-1617, patch_range_for_deletions 2054-2068), of
`rust/lance/src/dataset.rs` (delete 906-954) and of `transaction.rs` (Delete in build_manifest 680-696).
-/
namespace Verif.Deletion
open Verif

/-- deletion.rs:16-20 `DeletionVector`.  A `HashSet<u32>` is a list without duplicates in hash
(arbitrary) order; a `RoaringBitmap` is an increasing list. -/
inductive DV where
  | none
  | set (s : List Nat)
  | bitmap (s : Bm)
deriving DecidableEq, Repr

/-- deletion.rs:11 `BITMAP_THRESDHOLD`. -/
def threshold : Nat := 5000

/-- deletion.rs:35-41 `len`. -/
def DV.len : DV → Nat
  | .none => 0
  | .set s => s.length
  | .bitmap s => s.length

/-- deletion.rs:47-53 `contains`. -/
def DV.contains : DV → Nat → Bool
  | .none, _ => false
  | .set s, i => s.contains i
  | .bitmap s, i => s.contains i

/-- deletion.rs:55-61 `contains_range` for `a..b`.  `RoaringBitmap::contains_range` on an empty range
is true; otherwise the number of values in the range is the size of the range. -/
def DV.containsRange : DV → Nat → Nat → Bool
  | .none, a, b => decide (b ≤ a)
  | .set s, a, b => (List.range' a (b - a)).all (fun i => s.contains i)
  | .bitmap s, a, b => decide ((s.filter (fun x => decide (a ≤ x) && decide (x < b))).length = b - a)

/-- deletion.rs:63-69 `range_cardinality` for `a..b`. -/
def DV.rangeCardinality : DV → Nat → Nat → Nat
  | .none, _, _ => 0
  | .set s, a, b => (List.range' a (b - a)).foldl (fun acc i => acc + (if s.contains i then 1 else 0)) 0
  | .bitmap s, a, b => (s.filter (fun x => decide (a ≤ x) && decide (x < b))).length

/-- deletion.rs:79-100 `into_sorted_iter`, `to_sorted_iter` (and `into_iter`, 270-285). -/
def DV.sortedIter : DV → List Nat
  | .none => []
  | .set s => Bm.ofList s
  | .bitmap s => s

/-- deletion.rs:105-121 `build_predicate`: keep mask for row addresses; `id as u32` keeps the low
32 bits. -/
def DV.buildPredicate : DV → List Nat → Option (List Bool)
  | .none, _ => Option.none
  | .set s, ids => some (ids.map (fun id => !s.contains (id % 4294967296)))
  | .bitmap s, ids => some (ids.map (fun id => !s.contains (id % 4294967296)))

/-- `HashSet::extend`: add the missing values. -/
def hashExtend (s : List Nat) (items : List Nat) : List Nat :=
  items.foldl (fun acc x => if acc.contains x then acc else x :: acc) s

/-- deletion.rs:217-262 `extend`, with the `size_hint` (`lower`, `upper`) of the iterator given. -/
def DV.extend (d : DV) (lower : Nat) (upper : Option Nat) (items : List Nat) : DV :=
  match d with
  | .none =>
    if upper = some 0 then .none
    else if lower ≥ threshold then .bitmap (Bm.ofList items)
    else match upper with
      | some u =>
        if u < threshold then .set (hashExtend [] items)
        else
          let s := hashExtend [] items
          if s.length > threshold then .bitmap (Bm.ofList s) else .set s
      | Option.none =>
        let s := hashExtend [] items
        if s.length > threshold then .bitmap (Bm.ofList s) else .set s
  | .set s =>
    let s := hashExtend s items
    if s.length > threshold then .bitmap (Bm.ofList s) else .set s
  | .bitmap s => .bitmap (Bm.union s items)

/-- deletion.rs:201-215 `PartialEq`. `HashSet` equality is set equality. -/
def DV.eq : DV → DV → Bool
  | .none, .none => true
  | .set s, .set t => decide (s.length = t.length) && s.all (fun x => t.contains x)
  | .bitmap s, .bitmap t => decide (s = t)
  | .set s, .bitmap t => decide (Bm.ofList s = t)
  | .bitmap t, .set s => decide (Bm.ofList s = t)
  | _, _ => false

/-! ## OffsetMapper (deletion.rs:138-182) -/

/-- deletion.rs:138-142, the state kept between calls. -/
structure Mapper where
  left : Nat := 0
  lastDiff : Nat := 0
deriving DecidableEq, Repr

/-- Outcome of the search loop: an answer, a panic (overflow, underflow, failed assertion), or
out of fuel (which would mean that the loop did not finish in that many rounds). -/
inductive Outcome where
  | ok (mid : Nat) (st : Mapper)
  | panic
  | fuel
deriving DecidableEq, Repr

/-- deletion.rs:157-181, the `loop`.  u32 arithmetic; overflow and underflow are panics. -/
def mapLoop (d : DV) (offset : Nat) : Nat → Nat → Nat → Nat → Outcome
  | 0, _, _, _ => .fuel
  | fuel + 1, left, right, mid =>
    if mid + 1 ≥ 4294967296 then .panic else
    let deleted := d.rangeCardinality 0 (mid + 1)
    if offset + deleted ≥ 4294967296 then .panic else
    if mid = offset + deleted ∧ d.contains mid = false then .ok mid ⟨left, mid - offset⟩
    else if mid < offset + deleted then
      if left = mid + 1 then .panic          -- assert_ne!(self.left, mid + 1)
      else if right < mid + 1 then .panic    -- right - self.left underflows
      else mapLoop d offset fuel (mid + 1) right ((mid + 1) + (right - (mid + 1)) / 2)
    else if mid < left then .panic           -- right - self.left underflows
    else mapLoop d offset fuel left mid (left + (mid - left) / 2)

/-- deletion.rs:152-182 `map_offset`. -/
def mapOffset (d : DV) (fuel : Nat) (st : Mapper) (offset : Nat) : Outcome :=
  if offset + st.lastDiff ≥ 4294967296 then .panic
  else if offset + d.len ≥ 4294967296 then .panic
  else mapLoop d offset fuel st.left (offset + d.len) (offset + st.lastDiff)

/-- A caller that maps several offsets with one mapper (e.g. fragment.rs, scanner take). -/
def mapAll (d : DV) (fuel : Nat) : Mapper → List Nat → Option (List Nat)
  | _, [] => some []
  | st, o :: os =>
    match mapOffset d fuel st o with
    | .ok mid st' => (mapAll d fuel st' os).map (mid :: ·)
    | _ => Option.none

/-! ## Fragment take (fragment.rs:1175-1228) -/

/-- fragment.rs:1207-1214, the inner `while`: skip deleted rows equal to the current row. -/
def skipDeleted : List Nat → Nat → List Nat × Nat
  | [], cur => ([], cur)
  | d :: ds, cur => if d = cur then skipDeleted ds (cur + 1) else (d :: ds, cur)

/-- fragment.rs:1204-1216, the outer `while`: advance `n` live rows. -/
def advance : Nat → List Nat → Nat → Nat
  | 0, _, cur => cur
  | n + 1, ds, cur =>
    let r := skipDeleted ds (cur + 1)
    advance n r.1 r.2

/-- fragment.rs:1189-1219, the new row id of one index.  Arithmetic is unbounded here; the result is
at most `rowId + deleted.length` (theorem `C06_take_bound`), so u32 does not overflow for rows that exist. -/
def takeIndex (sortedDeleted : List Nat) (rowId : Nat) : Nat :=
  let offset := (sortedDeleted.takeWhile (fun v => decide (v ≤ rowId))).length
  advance offset (sortedDeleted.drop offset) rowId

/-- fragment.rs:1176-1223, all indices. -/
def takeIndices (d : Option DV) (indices : List Nat) : List Nat :=
  match d with
  | some d => indices.map (takeIndex d.sortedIter)
  | Option.none => indices

/-! ## Range reads (fragment.rs:2054-2068) -/

/-- fragment.rs:2057-2066, the `for` loop. -/
def patchLoop : List Nat → Nat → Nat → Nat × Nat
  | [], s, e => (s, e)
  | v :: vs, s, e =>
    if v ≤ s then patchLoop vs (s + 1) (e + 1)
    else if v < e then patchLoop vs s (e + 1)
    else (s, e)

/-- fragment.rs:2054-2068 `patch_range_for_deletions`. -/
def patchRange (d : DV) (s e : Nat) : Nat × Nat := patchLoop d.sortedIter s e

/-! ## Delete (fragment.rs:1500-1617, dataset.rs:906-941, transaction.rs:680-696) -/

/-- The parts of a fragment that matter for deletes: id, physical row count and deletion vector
(the deletion file is represented by its content). -/
structure Frag where
  id : Nat
  rows : Nat
  dv : DV
deriving DecidableEq, Repr

/-- Result of deleting in one fragment. -/
inductive DelResult where
  | err
  | gone
  | keep (f : Frag)
deriving DecidableEq, Repr

/-- What the query planner makes of the predicate (fragment.rs:1516-1541): the literal `true`, the
literal `false` (both textually or after simplification), or a row predicate.  SQL `NULL` counts as
not matching. -/
inductive Pred where
  | always
  | never
  | rows (p : Nat → Nat → Bool)

/-- Rows the predicate matches. -/
def Pred.matches : Pred → Nat → Nat → Bool
  | .always, _, _ => true
  | .never, _, _ => false
  | .rows p, f, o => p f o

/-- fragment.rs:1583-1617 `write_deletions`. -/
def writeDeletions (f : Frag) (d : DV) : DelResult :=
  if d.len = f.rows ∧ d.containsRange 0 f.rows = true then .gone
  else if d.len ≥ f.rows then .err
  else .keep { f with dv := d }

/-- fragment.rs:1566-1581 `extend_deletions`; the size hint of the iterator is given. -/
def extendDeletions (f : Frag) (lower : Nat) (upper : Option Nat) (new : List Nat) : DelResult :=
  writeDeletions f (f.dv.extend lower upper new)

/-- The offsets returned by a filtered scan of one fragment: live rows that match, in order.
Trusted: the scan itself (fragment.rs:1528-1545). -/
def scanMatches (f : Frag) (p : Nat → Nat → Bool) : List Nat :=
  (List.range f.rows).filter (fun o => !f.dv.contains o && p f.id o)

/-- fragment.rs:1543-1557: the scan arrives in batches, each added to the deletion vector; the
iterators over batches have exact size hints. -/
def extendBatches (d : DV) (batches : List (List Nat)) : DV :=
  batches.foldl (fun d b => d.extend b.length (some b.length) b) d

/-- fragment.rs:1500-1564 `delete`; `split` says how the scan output is cut into batches. -/
def deleteFrag (split : List Nat → List (List Nat)) (f : Frag) : Pred → DelResult
  | .always => .gone
  | .never => .keep f
  | .rows p =>
    let d := extendBatches f.dv (split (scanMatches f p))
    if d.len = f.dv.len then .keep f else writeDeletions f d

/-- dataset.rs:906-927: collect updated fragments and ids of dropped fragments; `none` is an error. -/
def deleteCollect (split : List Nat → List (List Nat)) (p : Pred) :
    List Frag → Option (List Frag × List Nat)
  | [] => some ([], [])
  | f :: fs =>
    match deleteCollect split p fs with
    | Option.none => Option.none
    | some (up, del) =>
      match deleteFrag split f p with
      | .err => Option.none
      | .gone => some (up, f.id :: del)
      | .keep f' => if f' = f then some (up, del) else some (f' :: up, del)

/-- transaction.rs:687-693, the inner loop: the last update with the fragment's id wins. -/
def applyUpdates (updated : List Frag) (f : Frag) : Frag :=
  updated.foldl (fun cur u => if u.id = cur.id then u else cur) f

/-- transaction.rs:680-696, the Delete arm. -/
def applyDelete (frags : List Frag) (updated : List Frag) (deleted : List Nat) : List Frag :=
  (frags.filter (fun f => !deleted.contains f.id)).map (applyUpdates updated)

/-- dataset.rs:906-954 `Dataset::delete` without concurrent commits. -/
def deleteDataset (split : List Nat → List (List Nat)) (p : Pred) (frags : List Frag) : Option (List Frag) :=
  (deleteCollect split p frags).map (fun r => applyDelete frags r.1 r.2)

end Verif.Deletion
