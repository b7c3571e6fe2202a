import Verif.Mini.Model
import Verif.Fsst.Spec
/-!
# Mini-blocks of strings

Modelled from `rust/lance-encoding/src/encodings/physical/binary.rs` 529-743 (`BinaryMiniBlockEncoder` and its
decompressor), `encodings/physical/fsst.rs` 211-289 and 373-420 (FSST inside of mini-blocks) and `encoder.rs` 827-844
(which of the two is used).

A block of strings is a buffer and offsets into it (`VariableWidthBlock` with 32 bit offsets).  Indices that the code
computes within bounds are read with a default.
-/
namespace Verif.Mini

/-- A `u32` in little endian bytes. -/
def le32 (n : Nat) : List Nat := [n % 256, n / 256 % 256, n / 65536 % 256, n / 16777216 % 256]

/-- `try_cast_slice::<u8, u32>`, binary.rs 725: bytes as `u32`s. -/
def un32s : List Nat → List Nat
  | a :: b :: c :: d :: rest => (a + 256 * b + 65536 * c + 16777216 * d) :: un32s rest
  | _ => []

/-- An offset (always within bounds). -/
def off (offs : List Nat) (i : Nat) : Nat := offs.getD i 0

/-- The bytes that values `a` up to `b` take in a chunk: their offsets and their bytes, binary.rs 545-547, 556-557. -/
def spanSize (offs : List Nat) (a b : Nat) : Nat := off offs b - off offs a + (b - a + 1) * 4

/-- The loop of `search_next_offset_idx`, binary.rs 541-567.  `fuel` bounds the doublings.  Sums are of `u32`s; they
do not wrap for the sizes that `binaryCompress` accepts. -/
def searchLoop (offs : List Nat) (last : Nat) : Nat → Nat → Nat
  | 0, num => last + num
  | fuel + 1, num =>
    if offs.length ≤ last + num * 2 then
      if spanSize offs last (offs.length - 1) ≤ 4096 then offs.length - 1 else last + num
    else if spanSize offs last (last + num * 2) ≤ 4096 then searchLoop offs last fuel (num * 2)
    else last + num

/-- The loop of `chunk_data`, binary.rs 603-658: where chunks start and end. -/
def cutLoop (offs : List Nat) : Nat → Nat → Option (List (Nat × Nat))
  | 0, _ => none
  | fuel + 1, last =>
    let next := searchLoop offs last offs.length 1
    if next = offs.length - 1 then some [(last, next)]
    else (cutLoop offs fuel next).map ((last, next) :: ·)

/-- `trailing_zeros`, binary.rs 652. -/
def trailingZeros : Nat → Nat → Nat
  | 0, _ => 0
  | fuel + 1, n => if n % 2 = 1 then 0 else trailingZeros fuel (n / 2) + 1

/-- The size of a chunk, up to a multiple of 4, binary.rs 612-615, 635-639. -/
def paddedSize (offs : List Nat) (r : Nat × Nat) : Nat := (spanSize offs r.1 r.2 + 3) / 4 * 4

/-- `MiniBlockChunk` of a range, binary.rs 623-626, 651-654.  The size is cut down to a `u16`. -/
def spanChunk (offs : List Nat) (r : Nat × Nat) : Chunk :=
  ⟨paddedSize offs r % 65536, if r.2 = offs.length - 1 then 0 else trailingZeros 64 (r.2 - r.1)⟩

/-- The bytes of a chunk, binary.rs 665-687: offsets from the start of the chunk, the bytes, and padding to 4 bytes.
(The padding is by the length of the whole output, which is a multiple of 4 before each chunk.) -/
def spanBytes (buf offs : List Nat) (r : Nat × Nat) : List Nat :=
  let base := (r.2 - r.1 + 1) * 4
  let body := (((offs.drop r.1).take (r.2 + 1 - r.1)).map fun o => o - off offs r.1 + base).flatMap le32 ++
    (buf.drop (off offs r.1)).take (off offs r.2 - off offs r.1)
  body ++ List.replicate ((4 - body.length % 4) % 4) 72

/-- `BinaryMiniBlockEncoder::chunk_data`, binary.rs 574-700.  Arrow's offsets are `i32`s; the number of values is
bounded so that the sums of `u32`s do not wrap (the code has no such bound). -/
def binaryCompress (buf offs : List Nat) : Option Compressed :=
  if 1 < offs.length ∧ buf.length < 2 ^ 31 ∧ offs.length < 2 ^ 28 then
    (cutLoop offs offs.length 0).map fun rs => ⟨rs.flatMap (spanBytes buf offs), rs.map (spanChunk offs)⟩
  else none

/-- `BinaryMiniBlockDecompressor::decompress`, binary.rs 723-742: the bytes and the offsets of `n` strings. -/
def binaryDecompress (bytes : List Nat) (n : Nat) : Option (List Nat × List Nat) :=
  if 8 ≤ bytes.length ∧ bytes.length % 4 = 0 ∧ n + 1 ≤ (un32s bytes).length then
    let offs := (un32s bytes).take (n + 1)
    (slice bytes (off offs 0, off offs n)).map fun d => (d, offs.map fun o => o - off offs 0)
  else none

/-- Strings, each a list of bytes, stored as they are. -/
def binaryCodec : Codec (List Nat) :=
  ⟨fun vals => binaryCompress vals.flatten (Fsst.offsetsFrom 0 vals),
    fun bytes n => (binaryDecompress bytes n).map fun p => Fsst.strings p.1 p.2⟩

/-- `FsstMiniBlockEncoder::compress`, fsst.rs 211-289: FSST, and the compressed strings cut into chunks.  The page
is described with the symbol table; here compression is only defined where that is `table`.  An error of FSST is
`none`, and so are arrays of 2^30 bytes and more. -/
def fsstCompress (o : Fsst.Oracle) (table : List Nat) (vals : List (List Nat)) : Option Compressed :=
  if 2 * vals.flatten.length < 2 ^ 31 then
    match Fsst.compress o vals.flatten (Fsst.offsetsFrom 0 vals) with
    | .ok c => if c.table = table then binaryCompress c.bytes c.offsets else none
    | .error _ => none
  else none

/-- `FsstMiniBlockDecompressor::decompress`, fsst.rs 387-420, with its output buffers of 32 KiB and 1024 offsets. -/
def fsstDecompress (table bytes : List Nat) (n : Nat) : Option (List Nat × List Nat) :=
  match binaryDecompress bytes n with
  | none => none
  | some p =>
    match Fsst.decompress table p.1 p.2 (4 * 1024 * 8) 1024 with
    | .ok q => some q
    | .error _ => none

/-- Strings compressed with FSST. -/
def fsstCodec (o : Fsst.Oracle) (table : List Nat) : Codec (List Nat) :=
  ⟨fsstCompress o table, fun bytes n => (fsstDecompress table bytes n).map fun p => Fsst.strings p.1 p.2⟩

end Verif.Mini
