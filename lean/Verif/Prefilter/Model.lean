import Verif.RowSet.Model
import Verif.Deletion.Model
import Verif.RowIds.Sequence

/-!
# The deletion prefilter, and fragments by row offset

Models `rust/lance/src/index/prefilter.rs` (58-280) and `rust/lance-table/src/format/manifest.rs` (102-113,
303-323).
-/
namespace Verif.Prefilter
open Verif
open Verif.RowSet (TreeMap Mask)
open Verif.Deletion (DV)

/-- What the prefilter looks at in a fragment: its id, its deletion vector (`deletion_file` is `Some` exactly if
there is one) and its row id sequence. -/
structure PFrag where
  id : Nat
  dv : Option DV
  seq : RowIds.Seq

/-- prefilter.rs:63-70: the fragments whose rows may be in the indices.  `fragment_bitmap` of each index; `max`
is `manifest.max_fragment_id`, the largest id used so far. -/
def indexFragments (bitmaps : List (Option (List Nat))) (max : Nat) : List Nat :=
  if bitmaps.any (·.isNone) then List.range max
  else bitmaps.flatMap (fun b => b.getD [])

/-- prefilter.rs:187-202: ids without a fragment. -/
def missing (frags : List PFrag) (coverage : List Nat) : List Nat :=
  coverage.filter (fun c => !frags.any (fun f => f.id == c))

/-- prefilter.rs:187-202: ids of fragments with a deletion file. -/
def withDeletions (frags : List PFrag) (coverage : List Nat) : List Nat :=
  coverage.filter (fun c => frags.any (fun f => f.id == c && f.dv.isSome))

/-- deletion.rs `From<&DeletionVector> for RoaringBitmap`. -/
def bitmapOf (frags : List PFrag) (c : Nat) : Bm :=
  match frags.find? (fun f => f.id == c) with
  | none => []
  | some f => match f.dv with
    | none => []
    | some d => d.sortedIter

/-- prefilter.rs:82-115 `do_create_deletion_mask`.  The deletion vectors arrive in some order `order`. -/
def blockMask (frags : List PFrag) (missing order : List Nat) : Mask :=
  let m := order.foldl (fun m c => RowSet.insertBitmap m c (bitmapOf frags c)) []
  ⟨none, some (missing.foldl RowSet.insertFragment m)⟩

/-- deletion.rs:71-77 `iter`: a hash set is iterated in its own order. -/
def dvIter : DV → List Nat
  | .none => []
  | .set s => s
  | .bitmap s => s

/-- prefilter.rs:157-169, one fragment: its live row ids as a row set; `none` is a panic. -/
def liveSet (f : PFrag) : Option TreeMap :=
  match f.dv with
  | none => RowIds.Seq.toTreeMap f.seq
  | some d => (RowIds.Seq.mask f.seq (dvIter d)).bind RowIds.Seq.toTreeMap

/-- prefilter.rs:154-171: the fragments arrive in some order. -/
def allowSets : List PFrag → TreeMap → Option TreeMap
  | [], m => some m
  | f :: fs, m => match liveSet f with
    | none => none
    | some s => allowSets fs (RowSet.or m s)

/-- prefilter.rs:118-170 `do_create_deletion_mask_row_id`.  The cache is left out. -/
def allowMask (frags : List PFrag) : Option Mask :=
  (allowSets frags []).map (fun m => ⟨some m, none⟩)

inductive Deletions where
  /-- no mask is needed -/
  | none
  | mask (m : Mask)
  | panic

/-- prefilter.rs:181-222 `create_deletion_mask`. -/
def deletionMask (stable : Bool) (frags : List PFrag) (coverage order : List Nat) : Deletions :=
  if (missing frags coverage).isEmpty && (withDeletions frags coverage).isEmpty then .none
  else if stable then
    match allowMask frags with
    | none => .panic
    | some m => .mask m
  else .mask (blockMask frags (missing frags coverage) order)

/-- prefilter.rs:241-252: the filter of the query (if any) and the deletions combined.  `RowIdMask::default()`
lets everything pass. -/
def finalMask (filter : Option Mask) (deleted : Option Mask) : Mask :=
  let m : Mask := ⟨none, none⟩
  let m := match filter with
    | none => m
    | some f => RowSet.maskAnd m f
  match deleted with
  | none => m
  | some d => RowSet.maskAnd m d

/-! ## Fragments by offset -/

/-- manifest.rs:102-113 `compute_fragment_offsets` from `num_rows().unwrap_or_default()` of each fragment. -/
def offsets : Nat → List Nat → List Nat
  | acc, [] => [acc]
  | acc, n :: ns => acc :: offsets (acc + n) ns

/-- manifest.rs:312-321, the loop from index `i` on: (index, starting offset). -/
def reportFrom (start stop : Nat) : Nat → Nat → List Nat → List (Nat × Nat)
  | _, _, [] => []
  | i, off, n :: ns =>
    if off ≥ stop ∨ off + n ≤ start then [] else (i, off) :: reportFrom start stop (i + 1) (off + n) ns

/-- manifest.rs:306-309: where the loop starts. -/
def startIndex (rows : List Nat) (found : Option Nat) (start : Nat) : Nat :=
  match found with
  | some i => i
  | none => ((offsets 0 rows).filter (fun o => decide (o < start))).length - 1

/-- manifest.rs:303-323 `fragments_by_offset_range`.  `found` is the answer of `binary_search` if there is an
offset equal to `start`; otherwise the last smaller offset is used. -/
def byOffset (rows : List Nat) (found : Option Nat) (start stop : Nat) : List (Nat × Nat) :=
  let idx := startIndex rows found start
  reportFrom start stop idx ((offsets 0 rows).getD idx 0) (rows.drop idx)

/-- The contract of `slice::binary_search`: some index of the value if it is there, the insertion point if not. -/
def SearchOK (rows : List Nat) (start : Nat) (found : Option Nat) : Prop :=
  match found with
  | some i => (offsets 0 rows)[i]? = some start
  | none => start ∉ offsets 0 rows

end Verif.Prefilter
