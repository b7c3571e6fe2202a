import Verif.RowIds.Sequence

/-!
# Lookup of stable row ids

Models `rust/lance-table/src/rowids/index.rs`.  Outer `none` / `panic`: a panic.
-/
namespace Verif.RowIds
namespace Index

/-- One entry of the map: the ids covered (`lo..=hi`), the segment and the address segment
`addr..addr+len` (index.rs:28). -/
structure Piece where
  lo : Nat
  hi : Nat
  seg : Seg
  addr : Seg

/-- index.rs:77-95 `decompose_sequence`, from address `start` on.  The additions of addresses do not
overflow for fragments of at most `2^32` rows; unbounded here. -/
def decomposeFrom : Nat → Seq → Option (List Piece)
  | _, [] => some []
  | start, sg :: rest =>
    match sg.bounds with
    | none => none
    | some none => decomposeFrom (start + sg.len) rest
    | some (some (lo, hi)) =>
      (decomposeFrom (start + sg.len) rest).map (⟨lo, hi, sg, .range start (start + sg.len)⟩ :: ·)

/-- index.rs:77-95 `decompose_sequence`. -/
def decompose (frag : Nat) (q : Seq) : Option (List Piece) := decomposeFrom (RowSet.firstRow frag) q

/-- index.rs:33-36: the pieces of all fragments. -/
def piecesOf : List (Nat × Seq) → Option (List Piece)
  | [] => some []
  | (f, q) :: rest =>
    match decompose f q, piecesOf rest with
    | some a, some b => some (a ++ b)
    | _, _ => none

inductive Err where
  | panic
  | notSupported
deriving DecidableEq

/-- index.rs:42 `pieces.windows(2).any(..)`. -/
def overlapping : List Piece → Bool
  | a :: b :: rest => decide (a.hi ≥ b.lo) || overlapping (b :: rest)
  | _ => false

/-- index.rs:32-50 `RowIdIndex::new`.  The `RangeInclusiveMap` is the list of its entries: keys are
disjoint after the check, and entries are never merged because their address segments differ. -/
def new (frags : List (Nat × Seq)) : Except Err (List Piece) :=
  match piecesOf frags with
  | none => .error .panic
  | some ps =>
    let sorted := sortBy Piece.lo ps
    if overlapping sorted then .error .notSupported else .ok sorted

/-- index.rs:55-60 `get`. -/
def get (ix : List Piece) (rowId : Nat) : Option (Option Nat) :=
  match ix.find? (fun p => decide (p.lo ≤ rowId ∧ rowId ≤ p.hi)) with
  | none => some none
  | some p =>
    match p.seg.position rowId with
    | none => none
    | some none => some none
    | some (some pos) => some (p.addr.get pos)

end Index
end Verif.RowIds
