import Verif.Read.Model
import Verif.RowIds.Index

/-!
# Taking rows by position, address or row id

Models `rust/lance/src/dataset/take.rs` (27-311, 430-455, 535-553), the fragment part in
`rust/lance/src/dataset/fragment.rs` (1175-1310, 2113-2155) and the filter of deleted ids in
`rust/lance/src/dataset.rs` (1074-1240).

A dataset is its list of fragments, as open for reading (`Verif.Read.Frag`).  Row ids and addresses of
output rows are dropped unless asked for.  Not modelled: projections, the blob dataset that is zipped to the
result, and `concat_batches` failing for results that are too large.
-/
namespace Verif.Take
open Verif
open Verif.Read (Frag Row Opts Cell readImpl takeRange countRows)
open Verif.Deletion (DV Mapper mapOffset Outcome)

scoped notation "U32" => 4294967296
scoped notation "U64" => 18446744073709551616

inductive Fault where
  | error
  | panic
deriving DecidableEq, Repr

/-- Run a computation for each element in order, the first failure stops. -/
def each {α β : Type} (g : α → Except Fault β) : List α → Except Fault (List β)
  | [] => .ok []
  | a :: l => match g a with
    | .error e => .error e
    | .ok b => match each g l with
      | .error e => .error e
      | .ok bs => .ok (b :: bs)

/-! ## One fragment -/

/-- fragment.rs:1309-1324, the loop of `row_ids_contiguous`.  Offsets are below `u32::MAX`, so that `+ 1`
does not overflow. -/
def contiguousFrom : Nat → List Nat → Bool
  | _, [] => true
  | last, o :: os => decide (o = last + 1) && contiguousFrom o os

/-- fragment.rs:1285-1305 `take_rows`: rows by physical offset.  `legacy_read_range_as_batch` (2120-2130) and
`take_as_batch` (2144-2153) collect the batches of a read. -/
def takeRowsFrag {α : Type} (split : List α → List (List α)) (f : Frag α) (offsets : List Nat) (withAddr : Bool) :
    Except Fault (List (Row α)) :=
  let o : Opts := ⟨false, withAddr, false⟩
  let r := match offsets with
    | a :: b :: l =>
      if contiguousFrom a (b :: l) then takeRange split f o a ((b :: l).getLast (by simp) + 1)
      else readImpl split f o (.indices offsets)
    | _ => readImpl split f o (.indices offsets)
  match r with
  | none => .error .error
  | some bs => .ok bs.flatten

/-- fragment.rs:1175-1228 `FileFragment::take`: rows by their number among the live rows. -/
def takeFrag {α : Type} (split : List α → List (List α)) (f : Frag α) (indices : List Nat) :
    Except Fault (List (Row α)) :=
  takeRowsFrag split f (Deletion.takeIndices f.dv indices) false

/-! ## By address -/

/-- take.rs:435-455, the loop of `check_row_addrs`: sorted, contiguous.  `last_id + 1` wraps around as in a
release build. -/
def checkLoop (firstFrag : Nat) : Nat → Bool → Bool → List Nat → Bool × Bool
  | _, s, c, [] => (s, c)
  | last, s, c, a :: l =>
    checkLoop firstFrag a (s && decide (a > last))
      (c && decide (a = (last + 1) % U64) && decide (a / U32 = firstFrag)) l

/-- take.rs:160-179, the groups of the sorted path: `cur` is `current_fragment`, `acc` the addresses since
`current_start`. -/
def runsFrom (cur : Nat) (acc : List Nat) : List Nat → List (Nat × List Nat)
  | [] => if acc = [] then [] else [(cur, acc)]
  | a :: l => if a / U32 = cur then runsFrom cur (acc ++ [a]) l else (cur, acc) :: runsFrom (a / U32) [a] l

/-- `Dataset::get_fragment`. -/
def getFragment {α : Type} (frags : List (Frag α)) (id : Nat) : Option (Frag α) := frags.find? (fun f => f.id == id)

/-- take.rs:181-199, one group of the sorted path. -/
def takeRun {α : Type} (split : List α → List (List α)) (frags : List (Frag α)) (run : Nat × List Nat) :
    Except Fault (List (Row α)) :=
  match getFragment frags run.1 with
  | none => .error .error
  | some f => takeRowsFrag split f (run.2.map (· % U32)) false

/-- take.rs:225-228: `dedup` of a sorted list. -/
def dedup : List Nat → List Nat
  | [] => []
  | a :: l => match dedup l with
    | [] => [a]
    | b :: m => if a = b then b :: m else a :: b :: m

/-- take.rs:229-244: fragments of the dataset with the offsets wanted of them.  (Fragment ids are distinct,
so that `remove` is only called once for each group; ids are below 2^32.) -/
def perFragment {α : Type} (frags : List (Frag α)) (sorted : List Nat) : List (Frag α × List Nat) :=
  frags.filterMap (fun f =>
    match sorted.filter (fun a => a / U32 == f.id) with
    | [] => none
    | os => some (f, os.map (· % U32)))

/-- take.rs:264-291: put the rows into the order of the request. -/
def reorder {α : Type} (rows : List (Row α)) (addrs : List Nat) : List α :=
  addrs.filterMap (fun a => (rows.find? (fun r => decide (r.addr = .val a))).map (·.data))

/-- take.rs:101-292 `do_take_rows` without the addresses in the output. -/
def doTakeRows {α : Type} (split : List α → List (List α)) (frags : List (Frag α)) (addrs : List Nat) :
    Except Fault (List α) :=
  match addrs with
  | [] => .ok []
  | first :: rest =>
    let stats := checkLoop (first / U32) first true true rest
    if stats.2 then
      match getFragment frags (first / U32) with
      | none => .error .error
      | some f =>
        match takeRange split f ⟨false, false, false⟩ (first % U32) ((first :: rest).getLast (by simp) % U32 + 1) with
        | none => .error .error
        | some bs => .ok (bs.flatten.map (·.data))
    else if stats.1 then
      match each (takeRun split frags) (runsFrom (first / U32) [] addrs) with
      | .error e => .error e
      | .ok bs => .ok (bs.flatten.map (·.data))
    else
      match each (fun x => takeRowsFrag split x.1 x.2 true) (perFragment frags (dedup (sortBy id addrs))) with
      | .error e => .error e
      | .ok [] => .error .panic
      | .ok bs => .ok (reorder bs.flatten addrs)

/-- take.rs:296-310: with the addresses in the output. -/
def takeWithAddrs {α : Type} (split : List α → List (List α)) (frags : List (Frag α)) (addrs : List Nat) :
    Except Fault (List (α × Nat)) :=
  match doTakeRows split frags addrs with
  | .error e => .error e
  | .ok rows => if rows.length ≠ addrs.length then .error .error else .ok (rows.zip addrs)

/-! ## By position -/

/-- `RowAddress::TOMBSTONE_ROW` (lance-core/src/utils/address.rs). -/
def tombstone : Nat := 18446744073709551615

/-- take.rs:62-80, the inner `while`: go to the fragment that holds the offset. -/
def seek {α : Type} : List (Frag α) → Nat → Mapper → Nat → List (Frag α) × Nat × Mapper
  | [], fo, m, _ => ([], fo, m)
  | f :: fs, fo, m, o => if o ≥ fo + countRows f then seek fs (fo + countRows f) {} o else (f :: fs, fo, m)

/-- take.rs:86-90: the offset in the fragment. -/
def localOffset {α : Type} (fuel : Nat) (f : Frag α) (m : Mapper) (l : Nat) : Outcome :=
  match f.dv with
  | none => .ok (l % U32) m
  | some d => mapOffset d fuel m (l % U32)

/-- take.rs:60-94: addresses of sorted offsets; `none` is a panic of the mapper. -/
def walk {α : Type} (fuel : Nat) : List (Frag α) → Nat → Mapper → List Nat → Option (List Nat)
  | _, _, _, [] => some []
  | frags, fo, m, o :: os =>
    match seek frags fo m o with
    | ([], fo', m') => (walk fuel ([] : List (Frag α)) fo' m' os).map (tombstone :: ·)
    | (f :: fs, fo', m') =>
      match localOffset fuel f m' (o - fo') with
      | .ok l m'' => (walk fuel (f :: fs) fo' m'' os).map (((f.id % U32) * U32 + l) :: ·)
      | _ => none

/-- take.rs:42-97: addresses of offsets.  `permutation::sort` is a sort of the numbered offsets,
`apply_inv_slice_in_place` restores the order of the numbers. -/
def offsetsToAddrs {α : Type} (fuel : Nat) (frags : List (Frag α)) (offsets : List Nat) : Option (List Nat) :=
  let sorted := sortBy (·.1) offsets.zipIdx
  (walk fuel frags 0 {} (sorted.map (·.1))).map (fun addrs =>
    (sortBy (·.2) (addrs.zip (sorted.map (·.2)))).map (·.1))

/-- take.rs:27-98 `take`. -/
def take {α : Type} (split : List α → List (List α)) (frags : List (Frag α)) (offsets : List Nat) :
    Except Fault (List α) :=
  if offsets.isEmpty then .ok []
  else match offsetsToAddrs (2 ^ 34) frags offsets with
    | none => .error .panic
    | some addrs => doTakeRows split frags addrs

/-! ## By row id -/

/-- take.rs:535-553 `get_row_addrs`; `index` is the row id index of a dataset with stable row ids. -/
def rowAddrs (index : Option (Nat → Option Nat)) (ids : List Nat) : List Nat :=
  match index with
  | none => ids
  | some ix => ids.filterMap ix

/-- take.rs:458-475, 331-337: `take_rows`. -/
def takeIds {α : Type} (split : List α → List (List α)) (index : Option (Nat → Option Nat)) (frags : List (Frag α))
    (ids : List Nat) : Except Fault (List α) :=
  doTakeRows split frags (rowAddrs index ids)

/-! ## Filtering deleted ids (used for blob columns) -/

/-- dataset.rs:1083-1112 `get_frags_from_ordered_ids`.  Ids beyond the last fragment get no entry. -/
def fragsFromIds {α : Type} : List (Frag α) → List Nat → List (Option (Frag α))
  | [], _ => []
  | f :: fs, ids =>
    (ids.takeWhile (fun i => decide (i < f.id % U32))).map (fun _ => none) ++
      match ids.dropWhile (fun i => decide (i < f.id % U32)) with
      | [] => []
      | i :: is => if i = f.id % U32 then some f :: fragsFromIds fs is else fragsFromIds fs (i :: is)

/-- dataset.rs:1160-1187: the deleted offsets against the sorted addresses that are left (an empty list is
`exhausted`). -/
def dvLoop (frag : Nat) : List Nat → List Nat → List (Option Nat) × List Nat
  | [], addrs => ([], addrs)
  | del :: ds, addrs =>
    let keep := addrs.takeWhile (fun a => decide (a / U32 = frag) && decide (a % U32 < del))
    match addrs.dropWhile (fun a => decide (a / U32 = frag) && decide (a % U32 < del)) with
    | [] => (keep.map some, [])
    | a :: as =>
      if a / U32 ≠ frag then (keep.map some, a :: as)
      else if a % U32 = del then
        let r := dvLoop frag ds as
        (keep.map some ++ none :: r.1, r.2)
      else
        let r := dvLoop frag ds (a :: as)
        (keep.map some ++ r.1, r.2)

/-- dataset.rs:1154-1213, one fragment. -/
def filterFrag {α : Type} (f : Option (Frag α)) (frag : Nat) (addrs : List Nat) : List (Option Nat) × List Nat :=
  match f with
  | some f =>
    let r := match f.dv with
      | some d => dvLoop frag d.sortedIter addrs
      | none => ([], addrs)
    (r.1 ++ (r.2.takeWhile (fun a => decide (a / U32 = frag))).map some, r.2.dropWhile (fun a => decide (a / U32 = frag)))
  | none =>
    ((addrs.takeWhile (fun a => decide (a / U32 = frag))).map (fun _ => none), addrs.dropWhile (fun a => decide (a / U32 = frag)))

/-- dataset.rs:1154-1213, the loop. -/
def filterLoop {α : Type} : List (Option (Frag α) × Nat) → List Nat → List (Option Nat)
  | [], _ => []
  | (f, frag) :: rest, addrs => (filterFrag f frag addrs).1 ++ filterLoop rest (filterFrag f frag addrs).2

/-- dataset.rs:1115-1225 `filter_addr_or_ids`.  Trusted: `apply_inv_slice_in_place` of the `permutation`
crate panics if the slice has another length than the permutation. -/
def filterAddrOrIds {α : Type} (frags : List (Frag α)) (addrOrIds addrs : List Nat) : Except Fault (List Nat) :=
  if addrs.isEmpty then .ok []
  else
    let sorted := sortBy (·.1) addrs.zipIdx
    let ids := dedup (sorted.map (fun x => x.1 / U32))
    let out := filterLoop ((fragsFromIds frags ids).zip ids) (sorted.map (·.1))
    if out.length ≠ addrs.length then .error .panic
    else
      let unsorted := (sortBy (fun x => x.2) (out.zip (sorted.map (·.2)))).map (·.1)
      .ok ((addrOrIds.zip unsorted).filterMap (fun x => x.2.map (fun _ => x.1)))

/-- dataset.rs:1230-1242 `filter_deleted_ids`. -/
def filterDeletedIds {α : Type} (index : Option (Nat → Option Nat)) (frags : List (Frag α)) (ids : List Nat) :
    Except Fault (List Nat) :=
  filterAddrOrIds frags ids (rowAddrs index ids)

end Verif.Take
