import Verif.Vec.History
/-!
# Vector indices: nearest neighbour search

`Scanner::knn` and what it uses (`rust/lance/src/dataset/scanner.rs` 1670-1836, 2066-2159, 2242-2296), `ANNIvfPartitionExec` and
`ANNIvfSubIndexExec` (`rust/lance/src/io/exec/knn.rs`), `IVFIndex::search_in_partition` (`rust/lance/src/index/vector/ivf/v2.rs` 417-436),
`FlatIndex::search` (`rust/lance-index/src/vector/flat/index.rs` 76-131), `DatasetPreFilter` (`rust/lance/src/index/prefilter.rs` 56-258).

Distances are natural numbers: only their order is used.
-/
namespace Verif.Vec

/-- A sort by a key; equal keys in any order. -/
structure Srt where
  sort : {α : Type} → (α → Nat) → List α → List α
  perm : ∀ {α : Type} (key : α → Nat) (l : List α), (sort key l).Perm l
  sorted : ∀ {α : Type} (key : α → Nat) (l : List α), (sort key l).Pairwise (fun a b => key a ≤ key b)

/-- A nearest neighbour query: how many, the refine factor, the range of distances, the number of probed partitions, whether an index may be used,
whether unindexed fragments are left out, the fragments to search and the filter (with `prefilter`).
`Scanner::nearest` (`scanner.rs` 642-757). -/
structure Query where
  k : Nat
  refine : Option Nat
  lower : Option Nat
  upper : Option Nat
  nprobes : Nat
  useIndex : Bool
  fast : Bool
  fragments : Option (List Nat)
  filter : Option (Addr → Bool)

/-- How far a vector is from the query vector, how far the code of a partition is from it, and how far a centroid is. -/
structure Dist (V C : Type) where
  dist : V → Nat
  code : Nat → C → Nat
  centroid : Nat → Nat

/-- The range of distances: the lower bound is included, the upper is not (`scanner.rs` 2076-2099, `flat/index.rs` 96-101).
Simplified: missing bounds of `FlatIndex::search` are the smallest and the largest number if the other one is there. -/
def Query.inRange (q : Query) (d : Nat) : Bool := q.lower.all (fun l => decide (l ≤ d)) && q.upper.all (fun u => decide (d < u))

/-- `Scanner::flat_knn` (`scanner.rs` 2066-2137): distances (null for a null vector), the range if there is one, the `k` first in increasing order
with nulls last, then without nulls. -/
def flatKnn {V C : Type} (srt : Srt) (q : Query) (m : Dist V C) (rows : List (Addr × Option V)) : List (Addr × Nat) :=
  let ds := rows.map (fun r => (r.1, r.2.map m.dist))
  let inr := if q.lower.isSome || q.upper.isSome then ds.filter (fun r => r.2.any q.inRange) else ds
  let sorted := srt.sort (fun r : Addr × Option Nat => r.2.getD 0) (inr.filter (fun r => r.2.isSome)) ++ inr.filter (fun r => r.2.isNone)
  (sorted.take q.k).filterMap (fun r => r.2.map (fun d => (r.1, d)))

/-- `Scanner::scan` with the fragments of the scanner, or all. -/
def Query.scan {V : Type} (q : Query) (frags : List (Frag V)) : List (Addr × Option V) :=
  (match q.fragments with
    | none => frags
    | some ids => frags.filter (fun f => ids.contains f.id)).flatMap Frag.scan

/-- The rows of a scan that pass the filter. -/
def Query.filterRows {V : Type} (q : Query) (rows : List (Addr × Option V)) : List (Addr × Option V) :=
  match q.filter with
  | none => rows
  | some p => rows.filter (fun r => p r.1)

/-- `Scanner::prefilter_source` (`scanner.rs` 2242-2296) without scalar indices: the row ids of the filtered scan, or nothing. -/
def Query.allow {V : Type} (q : Query) (frags : List (Frag V)) : Option (List Addr) :=
  q.filter.map (fun _ => (q.filterRows (q.scan frags)).map Prod.fst)

/-- `DatasetPreFilter::create_deletion_mask` and `do_create_deletion_mask` (`prefilter.rs` 83-119, 185-221): deleted rows of covered fragments and covered
fragments that are missing are blocked. -/
def Delta.blocked {V C : Type} (frags : List (Frag V)) (d : Delta C) (a : Addr) : Bool :=
  d.bitmap.contains a.1 &&
    match frags.find? (fun f => f.id == a.1) with
    | none => true
    | some f => f.dels.contains a.2

/-- The mask of a delta: allowed by the filter, if there is one, and not blocked (`prefilter.rs` 226-256). -/
def Delta.selected {V C : Type} (frags : List (Frag V)) (allow : Option (List Addr)) (d : Delta C) (a : Addr) : Bool :=
  allow.all (fun ids => ids.contains a) && !d.blocked frags a

/-- `IVFIndex::search_in_partition` and `FlatIndex::search`: the `k * refine_factor` nearest of the selected rows in the range. -/
def searchPart {V C : Type} (srt : Srt) (q : Query) (m : Dist V C) (sel : Addr → Bool) (p : Nat) (rows : List (Addr × C)) : List (Addr × Nat) :=
  let ds := (rows.filter (fun r => sel r.1)).map (fun r => (r.1, m.code p r.2))
  (srt.sort Prod.snd (ds.filter (fun r => q.inRange r.2))).take (q.k * q.refine.getD 1)

/-- `kmeans_find_partitions` (`rust/lance-linalg/src/kmeans.rs` 624-644). -/
def findPartitions {V C : Type} (srt : Srt) (q : Query) (m : Dist V C) (n : Nat) : List Nat := (srt.sort m.centroid (List.range n)).take q.nprobes

/-- `ANNIvfPartitionExec` and `ANNIvfSubIndexExec` for one delta (`knn.rs` 369-400, 541-637). -/
def searchDelta {V C : Type} (srt : Srt) (q : Query) (m : Dist V C) (c : Cfg V C) (frags : List (Frag V)) (allow : Option (List Addr)) (d : Delta C) :
    Option (List (Addr × Nat)) :=
  ((findPartitions srt q m c.nparts).mapM (fun p => (d.file.load p).map (searchPart srt q m (d.selected frags allow) p))).map List.flatten

/-- `Scanner::ann` (`scanner.rs` 2139-2159): the results of all deltas, the first `k * refine_factor` of them. -/
def ann {V C : Type} (srt : Srt) (q : Query) (m : Dist V C) (c : Cfg V C) (frags : List (Frag V)) (ds : List (Delta C)) : Option (List (Addr × Nat)) :=
  (ds.mapM (searchDelta srt q m c frags (q.allow frags))).map (fun rs =>
    (srt.sort Prod.snd rs.flatten).take (q.k * q.refine.getD 1))

/-- `TakeExec` of the vector column: rows that are not there any more are left out. -/
def takeVec {V : Type} (frags : List (Frag V)) (ids : List Addr) : List (Addr × Option V) := ids.filterMap (fun a => (lookup frags a).map (fun v => (a, v)))

/-- `Scanner::knn` and `Scanner::knn_combined` (`scanner.rs` 1670-1836).  A refine factor of zero is an error.  The index is used if there is one. -/
def knn {V C : Type} (srt : Srt) (q : Query) (m : Dist V C) (s : State V C) : Option (List (Addr × Nat)) :=
  match (if q.useIndex then s.index else none) with
  | none => some (flatKnn srt q m (q.filterRows (q.scan s.frags)))
  | some (c, ds) =>
    if q.refine = some 0 then none
    else
      match ann srt q m c s.frags ds with
      | none => none
      | some a =>
        let refined := if q.refine.isSome then flatKnn srt q m (takeVec s.frags (a.map Prod.fst)) else a
        let un := unindexed s.frags ds
        if q.fast || un.isEmpty then some refined
        else
          let appended := flatKnn srt q m (q.filterRows (un.flatMap Frag.scan))
          some (flatKnn srt q m (takeVec s.frags ((appended ++ refined).map Prod.fst)))

end Verif.Vec
