/-!
# Pages of bitpacked numbers (`rust/lance-encoding/src/encodings/physical/bitpack.rs`)

A page of the `Bitpacked` encoding has its numbers one after the other, each with the same number of bits, the lowest bit first, without regard to the limits of bytes.
Nothing writes such pages any more (`BitpackedArrayEncoder` is used by no other part of the code and is not modelled); they are still read
(`rust/lance-encoding/src/encodings/physical.rs` 198-200).

Bytes are lists of bits, the lowest bit first.  Panics are `none`.  Sums of 64 bits do not overflow.
-/

namespace Verif.Bitpack

/-- What was read for one range of rows: `data`, `buffer_bit_start_offsets` and `buffer_bit_end_offsets` at one index (`bitpack.rs` 334-354). -/
structure Buf where
  bits : List Bool
  start : Nat
  stop : Option Nat
deriving Repr, DecidableEq

/-- The number of bytes of a buffer. -/
def Buf.len (buf : Buf) : Nat := buf.bits.length / 8

/-- `bitpack.rs` 279-303: the bytes that are read for a range of rows.  Simplification: the page starts at offset 0 of the file. -/
def scheduleRange (b : Nat) (page : List Bool) (r : Nat × Nat) : Buf :=
  let startByte := r.1 * b / 8
  let endByte := if r.2 * b % 8 ≠ 0 then r.2 * b / 8 + 1 else r.2 * b / 8
  ⟨(page.drop (8 * startByte)).take (8 * (endByte - startByte)), r.1 * b % 8, if r.2 * b % 8 ≠ 0 then some (r.2 * b % 8) else none⟩

/-- `bitpack.rs` 563-580. -/
def rowsInBuffer (len b start : Nat) (stop : Option Nat) : Nat :=
  match stop with
  | some e => (len * 8 - start - (8 - e)) / b
  | none => (len * 8 - start) / b

/-- `bitpack.rs` 518-525. -/
inductive StartOffset where
  | skipFull (rows : Nat)
  | skipSome (bit : Nat)
deriving Repr, DecidableEq

/-- `bitpack.rs` 536-560.  The index of the byte and the bit in it are one number. -/
def computeStartOffset (skip : Nat) (b : Nat) (buf : Buf) : StartOffset :=
  let rows := rowsInBuffer buf.len b buf.start buf.stop
  if skip ≥ rows then .skipFull rows else .skipSome (skip * b + buf.start)

/-- `bitpack.rs` 476-484: the last byte is reached, and the bits of the range are used up. -/
def ended (buf : Buf) (pos : Nat) : Bool :=
  match buf.stop with
  | some e => pos / 8 == buf.len - 1 && decide (pos % 8 ≥ e)
  | none => false

/-- `bitpack.rs` 495-510: the last bit of the value at a bit of the buffer; indexing beyond the buffer panics. -/
def isNegative (b : Nat) (buf : Buf) (pos : Nat) : Option Bool :=
  let t := pos % 8 + b
  if t % 8 = 0 then buf.bits[8 * (pos / 8 + t / 8 - 1) + 7]? else buf.bits[8 * (pos / 8 + t / 8) + (t % 8 - 1)]?

/-- A word, as its bits: `w i` is bit `i`. -/
abbrev Word := Nat → Bool

/-- Byte `i` of a buffer, which must not be beyond its end. -/
def Buf.byte (buf : Buf) (i : Nat) : Word := fun j => decide (j < 8) && buf.bits.getD (8 * i + j) false

/-- What `bitpack.rs` 391-432 changes while it moves the bits of one value: `src_idx`, `src_offset`, `src_bits_written`, `dst_idx` (from the first byte of the value on),
`dst_offset`, `curr_mask`, `curr_src`, and the bits of the destination from the first byte of the value on. -/
structure Move where
  srcIdx : Nat
  srcOffset : Nat
  written : Nat
  dstIdx : Nat
  dstOffset : Nat
  mask : Word
  curr : Word
  dst : Word

/-- `bitpack.rs` 393-405: the masks and the first byte.  The mask is the `b` lowest bits. -/
def firstMove (b : Nat) (buf : Buf) (pos : Nat) : Move where
  srcIdx := pos / 8
  srcOffset := pos % 8
  written := 0
  dstIdx := 0
  dstOffset := 0
  mask := fun i => decide (i < b)
  curr := fun i => buf.byte (pos / 8) i && (decide (pos % 8 ≤ i) && decide (i - pos % 8 < b))
  dst := fun _ => false

/-- `(curr_src >> src_offset) << dst_offset` in 8 bits (`bitpack.rs` 413). -/
def addend (m : Move) : Word := fun j => decide (j < 8) && (decide (m.dstOffset ≤ j) && m.curr (j - m.dstOffset + m.srcOffset))

/-- `bitpack.rs` 411-432, with at least as much fuel as there are bits.  `+=` of a byte is `none` if both have one of the bits (there would be a carry). -/
def moveBits (b : Nat) (buf : Buf) : Nat → Move → Option Move
  | 0, m => some m
  | fuel + 1, m =>
    if m.written < b then
      if (List.range 8).any (fun j => m.dst (8 * m.dstIdx + j) && addend m j) then none
      else
        let n := min (min (b - m.written) (8 - m.srcOffset)) (8 - m.dstOffset)
        let dst : Word := fun g => m.dst g || (decide (8 * m.dstIdx ≤ g) && addend m (g - 8 * m.dstIdx))
        let mask : Word := fun i => m.mask (i + n)
        let dstIdx := if m.dstOffset + n = 8 then m.dstIdx + 1 else m.dstIdx
        let dstOffset := if m.dstOffset + n = 8 then 0 else m.dstOffset + n
        if m.srcOffset + n = 8 then
          let next : Move := ⟨m.srcIdx + 1, 0, m.written + n, dstIdx, dstOffset, mask, m.curr, dst⟩
          if m.srcIdx + 1 = buf.len then some next
          else moveBits b buf fuel { next with curr := fun i => buf.byte (m.srcIdx + 1) i && mask i }
        else moveBits b buf fuel ⟨m.srcIdx, m.srcOffset + n, m.written + n, dstIdx, dstOffset, mask, m.curr, dst⟩
    else some m

/-- `bitpack.rs` 437-474: the bits of the destination after those of a negative number, and the byte at which the next value starts.  `negative` is
`self.signed && is_negative`. -/
def pad (b u : Nat) (negative : Bool) (m : Move) : Word × Nat :=
  let padded := negative && decide (0 < m.dstOffset)
  let dst : Word := fun g => m.dst g || (padded && (decide (8 * m.dstIdx + m.dstOffset ≤ g) && decide (g < 8 * m.dstIdx + 8)))
  if u = b then (dst, m.dstIdx)
  else
    let next := m.dstIdx + u / 8 - (b + 7) / 8 + (if b % 8 = 0 then 0 else 1)
    (fun g => dst g || (negative && ((!padded && (decide (8 * m.dstIdx ≤ g) && decide (g < 8 * m.dstIdx + 8))) ||
      (decide (8 * (m.dstIdx + 1) ≤ g) && decide (g < 8 * next)))), next)

/-- `bitpack.rs` 391-474: one value, as the bits of the bytes that it takes in the destination, and the bit of the buffer after it. -/
def moveValue (b u : Nat) (negative : Bool) (buf : Buf) (pos : Nat) : Option (List Bool × Nat) :=
  match moveBits b buf b (firstMove b buf pos) with
  | none => none
  | some m =>
    let (dst, next) := pad b u negative m
    some ((List.range (8 * next)).map dst, 8 * m.srcIdx + m.srcOffset)

/-- `bitpack.rs` 391-485: the rows that are taken from one buffer, at most the given number, from a bit on. -/
def readRows (b u : Nat) (signed : Bool) (buf : Buf) : Nat → Nat → Option (List (List Bool))
  | 0, _ => some []
  | n + 1, pos =>
    if pos / 8 < buf.len then
      match isNegative b buf pos with
      | none => none
      | some negative =>
        match moveValue b u (signed && negative) buf pos with
        | none => none
        | some (row, pos') =>
          if ended buf pos' then some [row]
          else (readRows b u signed buf n pos').map (row :: ·)
    else some []

/-- `bitpack.rs` 372-485: the buffers one after the other, with the number of rows to skip and the number of rows still to take. -/
def decodeLoop (b u : Nat) (signed : Bool) : List Buf → Nat → Nat → Option (List (List Bool))
  | [], _, _ => some []
  | buf :: bufs, skip, n =>
    match computeStartOffset skip b buf with
    | .skipFull rows => decodeLoop b u signed bufs (skip - rows) n
    | .skipSome pos =>
      match readRows b u signed buf n pos with
      | none => none
      | some rows => (decodeLoop b u signed bufs skip (n - rows.length)).map (rows ++ ·)

/-- `bitpack.rs` 357-493: the rows that were not found stay zero, as the destination was made. -/
def decode (b u : Nat) (signed : Bool) (bufs : List Buf) (skip n : Nat) : Option (List (List Bool)) :=
  (decodeLoop b u signed bufs skip n).map (fun rows => rows ++ List.replicate (n - rows.length) (List.replicate u false))

/-- `rust/lance-encoding/src/encodings/logical/primitive.rs` 3013-3040: the batches of a page; each skips the rows of the batches before it. -/
def drain (b u : Nat) (signed : Bool) (bufs : List Buf) : List Nat → Nat → Option (List (List Bool))
  | [], _ => some []
  | n :: ns, drained =>
    match decode b u signed bufs drained n, drain b u signed bufs ns (drained + n) with
    | some x, some y => some (x ++ y)
    | _, _ => none

/-- Reading ranges of rows of a page in batches of the given numbers of rows (`bitpack.rs` 266-330 and `primitive.rs` 3013-3040). -/
def read (b u : Nat) (signed : Bool) (page : List Bool) (ranges : List (Nat × Nat)) (batches : List Nat) : Option (List (List Bool)) :=
  drain b u signed (ranges.map (scheduleRange b page)) batches 0

end Verif.Bitpack
