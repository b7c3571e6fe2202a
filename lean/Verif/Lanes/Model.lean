import Verif.Mini.Bitpack

/-!
# Pages of integers in chunks of 1024 (`rust/lance-encoding/src/encodings/physical/bitpack_fastlanes.rs` 38-560)

The `BitpackedForNonNeg` encoding: the numbers are cut into chunks of 1024, each of which is packed by the FastLanes functions (`Verif.Mini.pack`, `Verif.Mini.unpack`) with
the same number of bits.  A page is the list of its packed chunks; bytes are counted in chunks (all chunks have the same, positive, number of bytes).
Numbers are those of the unsigned type of the same width.  Panics are `none`.
-/

namespace Verif.Lanes

/-- A range of rows of a page. -/
abbrev Range := Nat × Nat

/-! ## Writing -/

/-- `bitpack_fastlanes.rs` 38-196: the bits of the widest of the values that are not null, at least one.  `bit_or` is over one array; the maximum is over the arrays. -/
def bitWidth (arrays : List (List (Option Nat))) : Nat :=
  let w := (arrays.map (fun a => Mini.bitLen ((a.filterMap id).foldl (· ||| ·) 0))).foldl max 0
  if w = 0 then 1 else w

/-- `bitpack_fastlanes.rs` 206-272: the chunks; the last one has zeros at its end. -/
def chunks (values : List Nat) : List (List Nat) :=
  let full := values.length / 1024
  let whole := (List.range full).map (fun i => (values.drop (i * 1024)).take 1024)
  if values.length % 1024 = 0 then whole
  else
    let last := values.drop (values.length - values.length % 1024)
    whole ++ [last ++ List.replicate (1024 - last.length) 0]

/-- The packed chunks (`unchecked_pack`). -/
def packAll (T W : Nat) : List (List Nat) → Option (List (List Nat))
  | [] => some []
  | c :: cs =>
    match Mini.pack T W c, packAll T W cs with
    | some p, some ps => some (p :: ps)
    | _, _ => none

/-- `bitpack_fastlanes.rs` 206-272. -/
def encode (T W : Nat) (values : List Nat) : Option (List (List Nat)) := packAll T W (chunks values)

/-! ## Reading -/

/-- Some chunks that are read together, from `start` up to `stop`, and the ranges of rows for which they are read. -/
structure Group where
  start : Nat
  stop : Nat
  ranges : List Range
deriving Repr, DecidableEq

/-- `bitpack_fastlanes.rs` 404-409: the chunks of one range. -/
def groupOf (r : Range) : Group := ⟨r.1 / 1024, (r.2 - 1) / 1024 + 1, [r]⟩

/-- `bitpack_fastlanes.rs` 411-428: the last group and the range before, then the other ranges. -/
def scheduleFrom (g : Group) (prev : Range) : List Range → List Group
  | [] => [g]
  | r :: rs =>
    if r.1 / 1024 = (prev.2 - 1) / 1024 then scheduleFrom { g with stop := (r.2 - 1) / 1024 + 1, ranges := g.ranges ++ [r] } r rs
    else g :: scheduleFrom (groupOf r) r rs

/-- `bitpack_fastlanes.rs` 397-428; `assert!` panics if there are no ranges. -/
def schedule : List Range → Option (List Group)
  | [] => none
  | r :: rs => some (scheduleFrom (groupOf r) r rs)

/-- `bitpack_fastlanes.rs` 518-551: what is taken from one chunk: the rows, `curr_range_start`, and the ranges from `ranges_idx` on.  With more fuel than ranges.
Simplification: `end - curr_range_start` does not go below zero. -/
def takeChunk {α : Type} (chunk : List α) : Nat → Nat → List Range → Option (List α × Nat × List Range)
  | 0, _, _ => none
  | _ + 1, _, [] => none
  | fuel + 1, curr, r :: rs =>
    if curr + (1024 - curr % 1024) ≤ r.2 then some (chunk.drop (curr % 1024), curr + (1024 - curr % 1024), r :: rs)
    else
      let needed := min (r.2 - curr) (1024 - curr % 1024)
      let out := (chunk.drop (curr % 1024)).take needed
      if curr + needed = r.2 then
        match rs with
        | [] => some (out, curr, [])
        | r' :: _ => (takeChunk chunk fuel r'.1 rs).map (fun x => (out ++ x.1, x.2))
      else (takeChunk chunk fuel (curr + needed) (r :: rs)).map (fun x => (out ++ x.1, x.2))

/-- `bitpack_fastlanes.rs` 503-552: the chunks of one group. -/
def takeChunks {α : Type} (unpack : List Nat → Option (List α)) : List (List Nat) → Nat → List Range → Option (List α)
  | [], _, _ => some []
  | p :: ps, curr, rs =>
    match unpack p with
    | none => none
    | some chunk =>
      match takeChunk chunk (rs.length + 1) curr rs with
      | none => none
      | some (out, curr', rs') => (takeChunks unpack ps curr' rs').map (out ++ ·)

/-- `bitpack_fastlanes.rs` 498-503: one group, from the start of its first range on. -/
def takeGroup {α : Type} (unpack : List Nat → Option (List α)) (page : List (List Nat)) (g : Group) : Option (List α) :=
  match g.ranges with
  | [] => none
  | r :: _ => takeChunks unpack ((page.drop g.start).take (g.stop - g.start)) r.1 g.ranges

/-- `bitpack_fastlanes.rs` 491-556: all groups. -/
def takeGroups {α : Type} (unpack : List Nat → Option (List α)) (page : List (List Nat)) : List Group → Option (List α)
  | [] => some []
  | g :: gs =>
    match takeGroup unpack page g, takeGroups unpack page gs with
    | some a, some b => some (a ++ b)
    | _, _ => none

/-- `bitpack_fastlanes.rs` 390-458: what the decoder of some ranges has. -/
def load (T W : Nat) (page : List (List Nat)) (ranges : List Range) : Option (List Nat) :=
  match schedule ranges with
  | none => none
  | some gs => takeGroups (Mini.unpack T W) page gs

/-- `bitpack_fastlanes.rs` 468-488: some rows of the decoder; slicing beyond the end panics. -/
def slice (loaded : List Nat) (skip n : Nat) : Option (List Nat) :=
  if skip + n ≤ loaded.length then some ((loaded.drop skip).take n) else none

/-- `rust/lance-encoding/src/encodings/logical/primitive.rs` 3013-3040: the batches of a page. -/
def drain (loaded : List Nat) : List Nat → Nat → Option (List (List Nat))
  | [], _ => some []
  | n :: ns, drained =>
    match slice loaded drained n, drain loaded ns (drained + n) with
    | some x, some y => some (x :: y)
    | _, _ => none

/-- Reading ranges of rows of a page in batches. -/
def read (T W : Nat) (page : List (List Nat)) (ranges : List Range) (batches : List Nat) : Option (List (List Nat)) :=
  match load T W page ranges with
  | none => none
  | some loaded => drain loaded batches 0

end Verif.Lanes
