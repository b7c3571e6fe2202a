import Verif.Mini.Model
/-!
# Mini-blocks of bit packed integers

Modelled from `rust/lance-encoding/src/compression_algo/fastlanes.rs` (FastLanes bit packing),
`encodings/physical/bitpack_fastlanes.rs` 1566-1745 (`BitpackMiniBlockEncoder` and its decompressor), `statistics.rs`
309-375 (bit widths) and `encoder.rs` 801-826 (when it is used).

`T` is the number of bits of the integer type (8, 16, 32 or 64) and `W` the number of bits that are kept.  Integers are
natural numbers; operations that could leave the type are followed by `% 2 ^ T`.  Array accesses that the code
computes within bounds are read with a default.
-/
namespace Verif.Mini

/-- `FL_ORDER`, fastlanes.rs 20. -/
def flOrder (o : Nat) : Nat := [0, 4, 2, 6, 1, 5, 3, 7].getD o 0

/-- `index`, fastlanes.rs 43-47, 107-111: which of the 1024 values is in which row of a lane. -/
def flIndex (row lane : Nat) : Nat := flOrder (row / 8) * 16 + row % 8 * 128 + lane

/-- `LANES`, fastlanes.rs 24. -/
def lanes (T : Nat) : Nat := 1024 / T

/-- The rows of a lane from `row` on, the last case of `pack!`, fastlanes.rs 58-90: the words that are written and
where.  The first argument is the number of rows left. -/
def packRows (T W lane : Nat) (input : List Nat) : Nat → Nat → Nat → List (Nat × Nat)
  | 0, _, _ => []
  | left + 1, row, tmp =>
    let src := input.getD (flIndex row lane) 0 % 2 ^ W
    let tmp := if row = 0 then src else tmp ||| ((src <<< (row * W % T)) % 2 ^ T)
    if row * W / T < (row + 1) * W / T then
      (lanes T * (row * W / T) + lane, tmp) :: packRows T W lane input left (row + 1) (src >>> (W - (row + 1) * W % T))
    else packRows T W lane input left (row + 1) tmp

/-- `pack!`, fastlanes.rs 33-94, for one lane. -/
def packLane (T W : Nat) (input : List Nat) (lane : Nat) : List (Nat × Nat) :=
  if W = T then (List.range T).map fun row => (lanes T * row + lane, input.getD (flIndex row lane) 0)
  else packRows T W lane input T 0 0

/-- Assignments to elements of an array, in order. -/
def assign (arr : List Nat) (ws : List (Nat × Nat)) : List Nat := ws.foldl (fun a w => a.set w.1 w.2) arr

/-- `unchecked_pack`, fastlanes.rs 201-250 and the like, with `pack_8!` and the like, 1369-1377.  There is no case for
width 0 (`unreachable!`).  The output is not initialized by the code; here it is zeros. -/
def pack (T W : Nat) (input : List Nat) : Option (List Nat) :=
  if 0 < W ∧ W ≤ T then
    some (assign (List.replicate (1024 * W / T) 0) ((List.range (lanes T)).flatMap (packLane T W input)))
  else none

/-- The rows of a lane from `row` on, the last case of `unpack!`, fastlanes.rs 128-167: the values that are written
and where. -/
def unpackRows (T W lane : Nat) (packed : List Nat) : Nat → Nat → Nat → List (Nat × Nat)
  | 0, _, _ => []
  | left + 1, row, src =>
    let curr := row * W / T
    let next := (row + 1) * W / T
    let shift := row * W % T
    if curr < next then
      let remaining := (row + 1) * W % T
      let current := W - remaining
      let tmp := (src >>> shift) % 2 ^ current
      if next < W then
        let src := packed.getD (lanes T * next + lane) 0
        (flIndex row lane, tmp ||| (((src % 2 ^ remaining) <<< current) % 2 ^ T)) :: unpackRows T W lane packed left (row + 1) src
      else (flIndex row lane, tmp) :: unpackRows T W lane packed left (row + 1) src
    else (flIndex row lane, (src >>> shift) % 2 ^ W) :: unpackRows T W lane packed left (row + 1) src

/-- `unpack!`, fastlanes.rs 97-170, for one lane. -/
def unpackLane (T W : Nat) (packed : List Nat) (lane : Nat) : List (Nat × Nat) :=
  if W = T then (List.range T).map fun row => (flIndex row lane, packed.getD (lanes T * row + lane) 0)
  else unpackRows T W lane packed T 0 (packed.getD lane 0)

/-- `unchecked_unpack`, fastlanes.rs 253-303 and the like, with `unpack_8!` and the like, 1348-1358. -/
def unpack (T W : Nat) (packed : List Nat) : Option (List Nat) :=
  if 0 < W ∧ W ≤ T then
    some (assign (List.replicate 1024 0) ((List.range (lanes T)).flatMap (unpackLane T W packed)))
  else none

/-! ### Chunks -/

/-- An integer of `n` bytes, little endian. -/
def leBytes : Nat → Nat → List Nat
  | 0, _ => []
  | n + 1, x => x % 256 :: leBytes n (x / 256)

/-- Little endian bytes read as an integer. -/
def ofLe : List Nat → Nat
  | [] => 0
  | b :: bs => b + 256 * ofLe bs

/-- `bits_per_value - leading_zeros`, statistics.rs 322. -/
def bitLen (x : Nat) : Nat := if x = 0 then 0 else x.log2 + 1

/-- The bit width of a chunk, statistics.rs 316-325. -/
def bitWidth (chunk : List Nat) : Nat := bitLen (chunk.foldl (· ||| ·) 0)

/-- `chunks(1024)`, statistics.rs 318: the last one may be shorter.  The same cut is made by `chunk_data_impl!`,
bitpack_fastlanes.rs 1599-1631, which takes the number of chunks from the number of bit widths.  The first argument
bounds the number of chunks. -/
def chunks1024 {A : Type} : Nat → List A → List (List A)
  | 0, _ => []
  | fuel + 1, words => if words.isEmpty then [] else words.take 1024 :: chunks1024 fuel (words.drop 1024)

/-- The elements of a chunk: the bit width and the packed values, bitpack_fastlanes.rs 1600-1612 and 1626-1640; a short
chunk is filled up with zeros, 1627-1630. -/
def packChunk (T : Nat) (chunk : List Nat) : Option (List Nat) :=
  (pack T (bitWidth chunk) (chunk ++ List.replicate (1024 - chunk.length) 0)).map (bitWidth chunk :: ·)

/-- All chunks, bitpack_fastlanes.rs 1599-1645. -/
def packChunks (T : Nat) : List (List Nat) → Option (List (List Nat))
  | [] => some []
  | chunk :: rest =>
    match packChunk T chunk, packChunks T rest with
    | some p, some ps => some (p :: ps)
    | _, _ => none

/-- `MiniBlockChunk`s, bitpack_fastlanes.rs 1613-1616 and 1641-1645; the size is cut down to a `u16`. -/
def packInfo (bpv : Nat) : List (List Nat) → List Chunk
  | [] => []
  | [p] => [⟨p.length * bpv % 65536, 0⟩]
  | p :: rest => ⟨p.length * bpv % 65536, 10⟩ :: packInfo bpv rest

/-- `BitpackMiniBlockEncoder::chunk_data`, bitpack_fastlanes.rs 1661-1672.  There has to be a value (statistics.rs 310). -/
def bitpackCompress (bpv : Nat) (vals : List (List Nat)) : Option Compressed :=
  if (bpv = 1 ∨ bpv = 2 ∨ bpv = 4 ∨ bpv = 8) ∧ vals ≠ [] then
    (packChunks (8 * bpv) (chunks1024 vals.length (vals.map ofLe))).map fun ps =>
      ⟨(ps.flatten.map (leBytes bpv)).flatten, packInfo bpv ps⟩
  else none

/-- `cast_slice`, bitpack_fastlanes.rs 1718: bytes as integers.  (That the copy is aligned is not modelled.) -/
def castWords (bpv : Nat) (bytes : List Nat) : List Nat := (cutValues bpv (bytes.length / bpv) bytes).map ofLe

/-- `BitpackMiniBlockDecompressor::decompress`, bitpack_fastlanes.rs 1702-1745.  The code leaves the buffer at 1024
values and only says how many there are (`shrink_to` does not truncate); they are cut off here. -/
def bitpackDecompress (bpv : Nat) (bytes : List Nat) (n : Nat) : Option (List (List Nat)) :=
  if 8 ≤ bytes.length ∧ n ≤ 1024 ∧ (bpv = 1 ∨ bpv = 2 ∨ bpv = 4 ∨ bpv = 8) then
    let width := ofLe (bytes.take bpv)
    let rest := bytes.drop bpv
    if rest.length % bpv = 0 ∧ rest.length = width * 1024 / 8 then
      (unpack (8 * bpv) width (castWords bpv rest)).map fun vs => (vs.take n).map (leBytes bpv)
    else none
  else none

/-- Integers of `bpv` bytes, each a list of bytes, bit packed. -/
def bitpackCodec (bpv : Nat) : Codec (List Nat) := ⟨bitpackCompress bpv, bitpackDecompress bpv⟩

/-- `create_miniblock_compressor` for fixed width blocks, encoder.rs 807-826.  The decompressor is the one that the
page's description names.  (Values of other widths than 1, 2, 4 and 8 bytes are not looked at for zeros.) -/
def fixedCodec (bpv : Nat) (vals : List (List Nat)) : Codec (List Nat) :=
  if (bpv = 1 ∨ bpv = 2 ∨ bpv = 4 ∨ bpv = 8) ∧
      ∀ chunk ∈ chunks1024 vals.length (vals.map ofLe), bitWidth chunk ≠ 0 then bitpackCodec bpv
  else valueCodec bpv

end Verif.Mini
