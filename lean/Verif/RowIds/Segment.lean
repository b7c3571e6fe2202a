import Verif.RowIds.Encoded
import Verif.Common.Sort
import Verif.RowIds.Bitmap

/-!
# Row id segments

Models `rust/lance-table/src/rowids/segment.rs`.  A panic (index out of bounds, `unwrap` of `None`,
overflow checked in debug builds) is `none`, except in `iter` and `len`: these are total here, a
bitmap shorter than its range (only possible in a damaged file) reads as zeros, and a segment with
more holes than ids has length 0.
-/
namespace Verif.RowIds

/-- `u64::MAX + 1`. -/
scoped notation "U64" => (18446744073709551616 : Nat)

/-- segment.rs:34-63 `U64Segment`. -/
inductive Seg where
  | range (s e : Nat)
  | holes (s e : Nat) (h : Enc)
  | bitmap (s e : Nat) (b : Bitmap)
  | sorted (a : Enc)
  | array (a : Enc)
deriving DecidableEq, Repr

/-- segment.rs:78-88 `SegmentStats`. -/
structure Stats where
  min : Nat
  max : Nat
  count : Nat
  sorted : Bool
deriving DecidableEq, Repr

/-- segment.rs:91-99 `n_holes`; `none` when a subtraction or the addition overflows. -/
def Stats.nHoles (st : Stats) : Option Nat :=
  if st.count = 0 then some 0
  else if st.min ≤ st.max ∧ st.max - st.min + 1 < U64 ∧ st.count ≤ st.max - st.min + 1 then
    some (st.max - st.min + 1 - st.count)
  else none

namespace Seg

/-- Drop from `xs` the elements equal to the next not yet matched element of `vals`.  This is the
closure of segment.rs:109-117 (`holes_in_slice`) and of 382-390 (`delete`). -/
def skipMatching : List Nat → List Nat → List Nat
  | [], _ => []
  | x :: xs, [] => x :: skipMatching xs []
  | x :: xs, v :: vals => if v = x then skipMatching xs vals else x :: skipMatching xs (v :: vals)

/-- segment.rs:104-119 `holes_in_slice` for the inclusive range `lo..=hi`. -/
def holesInSlice (lo hi : Nat) (existing : List Nat) : List Nat :=
  skipMatching (List.range' lo (hi + 1 - lo)) existing

/-- segment.rs:127-138, one iteration of the loop of `compute_stats`. -/
def statStep (st : Stats) (v : Nat) : Stats :=
  let count := st.count + 1
  let min := if v < st.min then v else st.min
  let max := if v > st.max then v else st.max
  { min, max, count, sorted := st.sorted && !(decide (count > 1) && decide (v < max)) }

/-- segment.rs:121-151 `compute_stats`. -/
def computeStats (vals : List Nat) : Stats :=
  let st := vals.foldl statStep ⟨U64 - 1, 0, 0, true⟩
  if st.count = 0 then { st with min := 0, max := 0 } else st

/-- segment.rs:153-162 `sorted_sequence_sizes`; `none` when `4 * n_holes` overflows.  The `f64`
division is replaced by the exact one, which can only change the chosen representation. -/
def sizes (st : Stats) : Option (Nat × Nat × Nat) :=
  match st.nHoles with
  | none => none
  | some n =>
    if 24 + 4 * n < U64 then
      some (24 + 4 * n, 24 + (st.max - st.min + 1 + 7) / 8, 24 + 2 * st.count)
    else none

/-- segment.rs:186-189, clear the bits of the holes. -/
def clearAll (base : Nat) : List Nat → Bitmap → Option Bitmap
  | [], b => some b
  | h :: hs, b => (b.clear (h - base)).bind (clearAll base hs)

/-- segment.rs:164-204 `from_stats_and_sequence`. -/
def fromStats (st : Stats) (seq : List Nat) : Option Seg :=
  if st.sorted then
    match st.nHoles with
    | none => none
    | some n =>
      if st.count = 0 then some (range 0 0)
      else if n = 0 then
        if st.max + 1 < U64 then some (range st.min (st.max + 1)) else none
      else
        match sizes st with
        | none => none
        | some (a, b, c) =>
          if a ≤ b ∧ a ≤ c then
            if st.max + 1 < U64 then
              some (holes st.min (st.max + 1)
                (Enc.ofList (sortBy id (holesInSlice st.min st.max seq))))
            else none
          else if b ≤ a ∧ b ≤ c then
            if st.max + 1 < U64 then
              (clearAll st.min (holesInSlice st.min st.max seq) (Bitmap.newFull (st.max - st.min + 1))).map
                (bitmap st.min (st.max + 1))
            else none
          else some (sorted (Enc.ofList seq))
  else some (array (Enc.ofList seq))

/-- segment.rs:206-209 `from_slice`. -/
def fromSlice (l : List Nat) : Option Seg := fromStats (computeStats l) l

/-- segment.rs:213-233 `iter`. -/
def iter : Seg → List Nat
  | range s e => List.range' s (e - s)
  | holes s e h => (List.range' s (e - s)).filter (fun v => !(h.search v).toBool)
  | bitmap s e b => (List.range' s (e - s)).filter (fun v => (b.get (v - s)).getD false)
  | sorted a => a.iter
  | array a => a.iter

/-- segment.rs:235-249 `len`. -/
def len : Seg → Nat
  | range s e => e - s
  | holes s e h => (e - s) - h.iter.length
  | bitmap s e b => (e - s) - (b.countZeros).getD 0
  | sorted a => a.len
  | array a => a.len

/-- segment.rs:252-270 `range` (min and max); outer `none`: panic. -/
def bounds : Seg → Option (Option (Nat × Nat))
  | range s e => if s ≥ e then some none else some (some (s, e - 1))
  | holes s e _ => if e = 0 then none else some (some (s, e - 1))
  | bitmap s e _ => if e = 0 then none else some (some (s, e - 1))
  | sorted a => match a.first, a.last with
    | some x, some y => some (some (x, y))
    | _, _ => none
  | array a => match a.min, a.max with
    | some x, some y => some (some (x, y))
    | _, _ => none

/-- `binary_search(v).unwrap_or_else(|x| x)`. -/
def searchPos (h : Enc) (v : Nat) : Nat :=
  match h.search v with
  | .ok i => i
  | .error i => i

/-- segment.rs:272-315 `slice`.  As in the code, the holes arm shadows `start` and `end` by
positions in the list of holes. -/
def slice (sg : Seg) (off n : Nat) : Option Seg :=
  match sg with
  | range s _ => some (range (s + off) (s + off + n))
  | holes s _ h =>
    let start := searchPos h (s + off)
    let stop := searchPos h (s + off + n)
    if stop < start then none
    else if stop - start = 0 then some (range start stop)
    else (h.slice start (stop - start)).map (holes start stop)
  | bitmap s _ b =>
    match b.sliceCountOnes off n with
    | none => none
    | some ones =>
      if ones = n then some (range (s + off) (s + off + n))
      else (b.fromSlice off n).map (bitmap (s + off) (s + off + n))
  | sorted a => (a.slice off n).map sorted
  | array a => (a.slice off n).map array

/-- segment.rs:317-347 `position`; outer `none`: panic. -/
def position (sg : Seg) (v : Nat) : Option (Option Nat) :=
  match sg with
  | range s e => if s ≤ v ∧ v < e then some (some (v - s)) else some none
  | holes s e h =>
    if s ≤ v ∧ v < e ∧ !(h.search v).toBool then
      let k := (h.iter.takeWhile (fun x => decide (x < v))).length
      if k ≤ v - s then some (some (v - s - k)) else none
    else some none
  | bitmap s e b =>
    if s ≤ v ∧ v < e then
      match b.get (v - s) with
      | none => none
      | some false => some none
      | some true =>
        match b.sliceCountZeros 0 (v - s) with
        | none => none
        | some z => if z ≤ v - s then some (some (v - s - z)) else none
    else some none
  | sorted a => match a.search v with
    | .ok i => some (some i)
    | .error _ => some none
  | array a => some (a.iter.idxOf? v)

/-- segment.rs:349-370 `get`. -/
def get (sg : Seg) (i : Nat) : Option Nat :=
  match sg with
  | range s e => if s + i < U64 ∧ s + i < e then some (s + i) else none
  | holes s e h => if i ≥ e - s then none else (holes s e h).iter[i]?
  | bitmap s e b => if i ≥ e - s then none else (bitmap s e b).iter[i]?
  | sorted a => a.get i
  | array a => a.get i

/-- segment.rs:376-394 `delete` (the `debug_assert!` of 378 is not represented). -/
def delete (sg : Seg) (vals : List Nat) : Option Seg :=
  fromStats (computeStats (skipMatching sg.iter vals)) (skipMatching sg.iter vals)

/-- segment.rs:404-410: does the representation count as sorted? -/
def isSorted : Seg → Bool
  | array _ => false
  | _ => true

/-- segment.rs:412-416 and 419-425: the first of `order` that differs from the entry of the cycled
`ps` at the same place. -/
def firstDiff (ps : List Nat) : List Nat → Nat → Option Nat
  | [], _ => none
  | i :: is, k =>
    match ps[k % ps.length]? with
    | none => none
    | some p => if p ≠ i % 4294967296 then some i else firstDiff ps is (k + 1)

/-- segment.rs:435-444, drop the masked positions; `i` is the position of the head. -/
def skipPositions : List Nat → Nat → List Nat → List Nat
  | [], _, _ => []
  | x :: xs, i, [] => x :: skipPositions xs (i + 1) []
  | x :: xs, i, p :: ps =>
    if p = i % 4294967296 then skipPositions xs (i + 1) ps else x :: skipPositions xs (i + 1) (p :: ps)

/-- segment.rs:396-447 `mask`. -/
def mask (sg : Seg) (ps : List Nat) : Option Seg :=
  if ps.isEmpty then some sg
  else if ps.length = sg.len then some (range 0 0)
  else if ps.length > sg.len then none
  else
    match firstDiff ps (List.range sg.len) 0, firstDiff ps.reverse (List.range sg.len).reverse 0 with
    | some f, some l =>
      match sg.get f, sg.get l with
      | some mn, some mx =>
        fromStats ⟨mn, mx, sg.len - ps.length, sg.isSorted⟩ (skipPositions sg.iter 0 ps)
      | _, _ => none
    | _, _ => none

end Seg
end Verif.RowIds
