import Verif.RowIds.Segment
import Verif.RowSet.Model

/-!
# Row id sequences

Models `rust/lance-table/src/rowids.rs`.  A panic is `none`.
-/
namespace Verif.RowIds

/-- rowids.rs:51 `RowIdSequence`. -/
abbrev Seq := List Seg

namespace Seq

/-- rowids.rs:96-98 `iter`. -/
def iter (q : Seq) : List Nat := q.flatMap Seg.iter

/-- rowids.rs:100-102 `len`. -/
def len (q : Seq) : Nat := (q.map Seg.len).sum

/-- rowids.rs:109-126 `extend`: two ranges that touch are merged. -/
def extend (q other : Seq) : Seq :=
  match q.getLast?, other with
  | some (.range s1 e1), .range s2 e2 :: rest =>
    if e1 = s2 then q.dropLast ++ .range s1 e2 :: rest else q ++ other
  | _, _ => q ++ other

/-- rowids.rs:205-217: the positions in one segment of the ids it holds, in the order of the ids.
The iterator over the segments is cycled, but every id visits all segments exactly once. -/
def matchesIn (sg : Seg) : List Nat → Option (List Nat)
  | [] => some []
  | v :: vs =>
    match sg.bounds with
    | none => none
    | some none => matchesIn sg vs
    | some (some (lo, hi)) =>
      if lo ≤ v ∧ v ≤ hi then
        match sg.position v with
        | none => none
        | some none => matchesIn sg vs
        | some (some i) => (matchesIn sg vs).map (i :: ·)
      else matchesIn sg vs

/-- All results, or a panic. -/
def sequence {α : Type} : List (Option α) → Option (List α)
  | [] => some []
  | none :: _ => none
  | some x :: xs => (sequence xs).map (x :: ·)

/-- rowids.rs:223-232 `segment_ranges`. -/
def rangesFrom : Nat → Nat → List (List Nat) → List (Nat × Nat × Nat)
  | _, _, [] => []
  | i, o, m :: ms =>
    if m.isEmpty then rangesFrom (i + 1) o ms
    else (i, o, o + m.length) :: rangesFrom (i + 1) (o + m.length) ms

/-- rowids.rs:191-242 `find_ids`. -/
def findIds (q : Seq) (ids : List Nat) : Option (List Nat × List (Nat × Nat × Nat)) :=
  match sequence (q.map (fun sg => matchesIn sg ids)) with
  | none => none
  | some ms =>
    let sortedMs := ms.map (fun m => sortBy id m)
    match sequence (((q.zip sortedMs).flatMap (fun p => p.2.map p.1.get))) with
    | none => none
    | some rowIds => some (rowIds, rangesFrom 0 0 sortedMs)

/-- rowids.rs:138-149, the loop of `delete`; `total` is `old_segments.len()`. -/
def deleteLoop (total : Nat) (rowIds : List Nat) : List (Nat × Nat × Nat) → Seq → Seq → Option (Seq × Seq)
  | [], remaining, acc => some (acc, remaining)
  | (idx, lo, hi) :: offs, remaining, acc =>
    let handled := total - remaining.length
    if idx < handled then none
    else
      let toAdd := idx - handled
      match remaining.drop toAdd with
      | [] => none
      | sg :: rest =>
        match sg.delete ((rowIds.drop lo).take (hi - lo)) with
        | none => none
        | some sg' => deleteLoop total rowIds offs rest (acc ++ remaining.take toAdd ++ [sg'])

/-- rowids.rs:129-153 `delete`. -/
def delete (q : Seq) (ids : List Nat) : Option Seq :=
  match findIds q ids with
  | none => none
  | some (rowIds, offs) =>
    (deleteLoop q.length rowIds offs q []).map (fun p => p.1 ++ p.2)

/-- rowids.rs:163-178, the loop of `mask`: `ps` are the positions not yet used. `as u32` truncates,
the additions overflow (`none`). -/
def maskLoop : Seq → List Nat → Nat → Nat → Option Seq
  | [], _, _, _ => some []
  | sg :: rest, ps, offset, cutoff =>
    let cutoff' := cutoff + sg.len % 4294967296
    if cutoff' ≥ 4294967296 then none
    else
      let here := ps.takeWhile (fun p => decide (p < cutoff'))
      if here.any (fun p => decide (p < offset)) then none
      else
        let loc := here.map (fun p => p - offset)
        match (if loc.isEmpty then some sg else sg.mask loc) with
        | none => none
        | some sg' =>
          (maskLoop rest (ps.dropWhile (fun p => decide (p < cutoff'))) cutoff' cutoff').map (sg' :: ·)

/-- rowids.rs:156-184 `mask`. -/
def mask (q : Seq) (ps : List Nat) : Option Seq :=
  (maskLoop q ps 0 0).map (fun q' => q'.filter (fun sg => sg.len != 0))

/-- rowids.rs:333-341 `RowIdSeqSlice`. -/
structure Slice where
  segs : Seq
  offsetStart : Nat
  offsetLast : Nat

/-- rowids.rs:253-263: skip whole segments; gives the segments from the start segment on and the
offset in it. -/
def findStart : Seq → Nat → Seq × Nat
  | [], off => ([], off)
  | sg :: rest, off => if off < sg.len then (sg :: rest, off) else findStart rest (off - sg.len)

/-- rowids.rs:265-275: the number of segments before the last one, and the end offset in it. -/
def findLast : Seq → Nat → Nat × Nat
  | [], off => (0, off)
  | sg :: rest, off =>
    if off ≤ sg.len then (0, off)
    else ((findLast rest (off - sg.len)).1 + 1, (findLast rest (off - sg.len)).2)

/-- rowids.rs:244-282 `slice`; `none`: `segments[a..=b]` out of bounds. -/
def slice (q : Seq) (offset len : Nat) : Option Slice :=
  if len = 0 then some ⟨[], 0, 0⟩
  else
    let (rest, os) := findStart q offset
    let (k, ol) := findLast rest (os + len)
    if k < rest.length then some ⟨rest.take (k + 1), os, ol⟩ else none

/-- rowids.rs:354-371, from the second segment on. -/
def sliceTail (ol : Nat) : Seq → List Nat
  | [] => []
  | [sg] => sg.iter.take ol
  | sg :: rest => sg.iter ++ sliceTail ol rest

/-- rowids.rs:343-374 `RowIdSeqSlice::iter`; `none`: a subtraction of lengths underflows. -/
def Slice.iter (s : Slice) : Option (List Nat) :=
  match s.segs with
  | [] => some []
  | [sg] => if s.offsetLast < s.offsetStart then none
      else some ((sg.iter.drop s.offsetStart).take (s.offsetLast - s.offsetStart))
  | sg :: rest => some (sg.iter.drop s.offsetStart ++ sliceTail s.offsetLast rest)

/-- rowids.rs:287-297 `get`, from offset `offset` on. -/
def getFrom : Seq → Nat → Nat → Option Nat
  | [], _, _ => none
  | sg :: rest, index, offset =>
    if index < offset + sg.len then sg.get (index - offset) else getFrom rest index (offset + sg.len)

/-- rowids.rs:287-297 `get`. -/
def get (q : Seq) (index : Nat) : Option Nat := getFrom q index 0

/-- The ways a call can fail. -/
inductive Err where
  | panic
  | tooMany
  | tooFew
  | outOfBounds
deriving DecidableEq, Repr

/-- `.slice(..)` inside `rechunk_sequences`. -/
def sliceE (sg : Seg) (off n : Nat) : Except Err Seg :=
  match sg.slice off n with
  | none => .error .panic
  | some s => .ok s

/-- rowids.rs:399-434, the `while remaining > 0` loop; gives the chunk, the segments left and the
offset in the first of them. -/
def chunkLoop : Seq → Nat → Nat → Seq → Except Err (Seq × Seq × Nat)
  | [], off, remaining, acc => if remaining = 0 then .ok (acc, [], off) else .error .tooMany
  | sg :: rest, off, remaining, acc =>
    if remaining = 0 then .ok (acc, sg :: rest, off)
    else if sg.len < off then .error .panic
    else if sg.len - off > remaining then
      match sliceE sg off remaining with
      | .error e => .error e
      | .ok s => .ok (extend acc [s], sg :: rest, off + remaining)
    else if sg.len - off = 0 then .ok (extend acc [sg], rest, off)
    else
      match sliceE sg off (sg.len - off) with
      | .error e => .error e
      | .ok s => chunkLoop rest 0 (remaining - (sg.len - off)) (extend acc [s])

/-- rowids.rs:386-437, the loop over chunk sizes. -/
def chunksLoop : List Nat → Seq → Nat → Except Err (List Seq × Seq)
  | [], segs, _ => .ok ([], segs)
  | n :: ns, segs, off =>
    match chunkLoop segs off n [] with
    | .error e => .error e
    | .ok (chunk, segs', off') =>
      match chunksLoop ns segs' off' with
      | .error e => .error e
      | .ok (cs, left) => .ok (chunk :: cs, left)

/-- rowids.rs:372-446 `rechunk_sequences`. -/
def rechunk (seqs : List Seq) (chunkSizes : List Nat) : Except Err (List Seq) :=
  match chunksLoop chunkSizes seqs.flatten 0 with
  | .error e => .error e
  | .ok (cs, left) => if left.isEmpty then .ok cs else .error .tooFew

/-- lance-io/src/lib.rs:114-126 `ReadBatchParams` (the variants used by `select_row_ids`). -/
inductive Params where
  | range (s e : Nat)
  | full
  | to (e : Nat)
  | from (s : Nat)
  | indices (l : List Nat)

/-- The slice and its iteration. -/
def sliceIds (q : Seq) (off n : Nat) : Except Err (List Nat) :=
  match (slice q off n).bind Slice.iter with
  | none => .error .panic
  | some l => .ok l

/-- rowids.rs:449-496 `select_row_ids`. -/
def select (q : Seq) : Params → Except Err (List Nat)
  | .indices l => match sequence (l.map q.get) with
    | none => .error .outOfBounds
    | some ids => .ok ids
  | .range s e =>
    if e > len q then .error .outOfBounds
    else if e < s then .error .panic
    else sliceIds q s (e - s)
  | .full => .ok (iter q)
  | .to e => if e > len q then .error .outOfBounds else sliceIds q 0 e
  | .from s => if len q < s then .error .panic else sliceIds q s (len q - s)

open Verif.RowSet in
/-- rowids.rs:300-331, one segment of `From<&RowIdSequence> for RowIdTreeMap`. -/
def addSeg (m : TreeMap) : Seg → Option TreeMap
  | .range s e => insertRange m (.incl s) (.excl e)
  | .bitmap s e b =>
    (insertRange m (.incl s) (.excl e)).map (fun m =>
      (List.range' s (e - s)).foldl (fun m v => if (b.get (v - s)).getD false then m else remove m v) m)
  | .holes s e h =>
    (insertRange m (.incl s) (.excl e)).map (fun m => h.iter.foldl remove m)
  | .sorted a => some (a.iter.foldl insert m)
  | .array a => some (a.iter.foldl insert m)

open Verif.RowSet in
/-- rowids.rs:300-331 `From<&RowIdSequence> for RowIdTreeMap`. -/
def toTreeMap (q : Seq) : Option TreeMap :=
  q.foldl (fun m sg => m.bind (fun m => addSeg m sg)) (some [])

end Seq
end Verif.RowIds
