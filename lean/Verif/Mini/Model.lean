/-!
# Mini-block pages (file format 2.1)

A column of narrow values is written in format 2.1 as *mini-block* pages: the values are compressed
into small chunks, the repetition and definition levels (which say where lists start and what is
null or empty) are cut to match, and each chunk is stored with its levels.  A reader fetches only
the chunks it needs, decodes them and picks the rows asked for.

Modelled from `rust/lance-encoding/src/encodings/logical/primitive.rs` (writer 3648-4012, scheduler
1134-1776, decoder 336-825), `repdef.rs` 340-421, `encoder.rs` 146-200 and
`encodings/physical/value.rs` 226-290, 376-437.

Panics (failed assertions, slices out of range, `unwrap` of nothing) are `none`; `debug_assert`s
are not modelled, as they are not compiled into release builds.  A byte is a `Nat` below 256.
-/
namespace Verif.Mini

/-- `u64` subtraction of a release build, which wraps.  Used where the code relies on wrapping
(primitive.rs 1474). -/
def wsub (a b : Nat) : Nat := (a + 2 ^ 64 - b) % 2 ^ 64

/-- `u64` addition of a release build, which wraps. -/
def wadd (a b : Nat) : Nat := (a + b) % 2 ^ 64

/-- `pad_bytes::<8>`, rust/lance-core/src/utils/bit.rs 8-11: the bytes missing to the next multiple
of 8 (`MINIBLOCK_ALIGNMENT`, primitive.rs 3489).  The bit masks are written as remainders. -/
def pad8 (n : Nat) : Nat := (8 - n % 8) % 8

/-- `u16::to_le_bytes`. -/
def le16 (n : Nat) : List Nat := [n % 256, n / 256 % 256]

/-- `u16::from_le_bytes`. -/
def un16 (a b : Nat) : Nat := a + 256 * b

/-- A level buffer as bytes: `LanceBuffer::reinterpret_slice` of `u16`s, repdef.rs 355 (little endian
machine).  The "block compressor" of levels keeps the bytes as they are (encoder.rs 912-932). -/
def packLevels (ls : List Nat) : List Nat := ls.flatMap le16

/-- `borrow_to_typed_slice::<u16>`, primitive.rs 343: bytes as `u16`s. -/
def unpackLevels : List Nat → List Nat
  | a :: b :: rest => un16 a b :: unpackLevels rest
  | _ => []

/-- `DefinitionInterpretation`, repdef.rs 461-468: the layers of a column, the innermost first. -/
inductive Layer
  | allValidItem | allValidList | nullableItem | nullableList | emptyableList | nullableAndEmptyableList
  deriving DecidableEq, Repr

/-- `num_def_levels`, repdef.rs 472-481. -/
def Layer.defLevels : Layer → Nat
  | .allValidItem => 0
  | .allValidList => 0
  | .nullableItem => 1
  | .nullableList => 1
  | .emptyableList => 1
  | .nullableAndEmptyableList => 2

/-- `is_list`, repdef.rs 492-500. -/
def Layer.isList : Layer → Bool
  | .allValidList => true
  | .nullableList => true
  | .emptyableList => true
  | .nullableAndEmptyableList => true
  | _ => false

/-- `MiniBlockChunk`, encoder.rs 168-184. -/
structure Chunk where
  numBytes : Nat
  logNumValues : Nat
  deriving DecidableEq, Repr

/-- `MiniBlockChunk::num_values`, encoder.rs 193-199.  The subtraction is of `u64`s; where it would
be negative the model takes 0. -/
def Chunk.numValues (c : Chunk) (prev total : Nat) : Nat :=
  if c.logNumValues = 0 then total - prev else 2 ^ c.logNumValues

/-- `MiniBlockCompressed`, encoder.rs 151-158.  (The number of values is taken from the block.) -/
structure Compressed where
  data : List Nat
  chunks : List Chunk
  deriving DecidableEq, Repr

/-- A `MiniBlockCompressor` (for a whole page of values) together with the `MiniBlockDecompressor`
(for one chunk) that the page's description selects. -/
structure Codec (V : Type) where
  compress : List V → Option Compressed
  decompress : List Nat → Nat → Option (List V)

/-! ### The writer -/

/-- `SerializedRepDefs`, repdef.rs 164-186, as far as the mini-block writer uses it. -/
structure RepDefs where
  rep : Option (List Nat)
  defs : Option (List Nat)
  layers : List Layer
  deriving DecidableEq, Repr

/-- `max_visible_level` of the writer, repdef.rs 195-202: `none` when there are no lists. -/
def RepDefs.maxVisible (rd : RepDefs) : Option Nat :=
  (rd.layers.findIdx? Layer.isList).map fun i => ((rd.layers.map Layer.defLevels).take i).sum

/-- The number of list layers, primitive.rs 3918 and 655. -/
def maxRepOf (layers : List Layer) : Nat := (layers.filter Layer.isList).length

/-- The loop of `RepDefSlicer::slice_next`, repdef.rs 403-412: how many levels to pass to get `n`
visible ones. -/
def passVisible (maxVis : Nat) : Nat → List Nat → Option Nat
  | 0, _ => some 0
  | _ + 1, [] => none
  | n + 1, d :: ds =>
    if d ≤ maxVis then (passVisible maxVis n ds).map (· + 1)
    else (passVisible maxVis (n + 1) ds).map (· + 1)

/-- `slice_with_length` on a level buffer, rust/lance-encoding/src/buffer.rs 370-380. -/
def sliceLen {A : Type} (l : List A) (start len : Nat) : Option (List A) :=
  if start + len ≤ l.length then some ((l.drop start).take len) else none

/-- `RepDefSlicer::slice_next`, repdef.rs 392-420: the next levels, and the new position. -/
def sliceNext (rd : RepDefs) (levels : List Nat) (cur n : Nat) : Option (List Nat × Nat) :=
  match rd.maxVisible with
  | none => (sliceLen levels cur n).map fun s => (s, cur + n)
  | some mv =>
    match rd.defs with
    | some ds =>
      if cur ≤ ds.length then
        match passVisible mv n (ds.drop cur) with
        | none => none
        | some p => (sliceLen levels cur p).map fun s => (s, cur + p)
      else none
    | none => (sliceLen levels cur n).map fun s => (s, cur + n)

/-- The number of leftovers in a chunk that is not the last, primitive.rs 3780-3787. -/
def leftovers (maxRep : Nat) (ls : List Nat) : Nat :=
  match ls.reverse.findIdx? (fun r => r == maxRep) with
  | some p => p + 1
  | none => ls.length

/-- The correction of the previous entry of the repetition index, primitive.rs 3793-3803.  The index
is kept latest entry first. -/
def fixPrev (maxRep : Nat) (ls : List Nat) : List (Nat × Nat) → Option (List (Nat × Nat))
  | [] => some []
  | (e, l) :: older =>
    match ls with
    | [] => none
    | r :: _ => some (if r = maxRep ∧ l ≠ 0 then (e + 1, 0) :: older else (e, l) :: older)

/-- The loop of `compress_levels`, primitive.rs 3759-3824: the levels of each chunk, and the
repetition index (latest entry first) when `maxRep > 0`. -/
def levelsLoop (rd : RepDefs) (levels : List Nat) (numValues maxRep : Nat) :
    List Chunk → Nat → Nat → List (Nat × Nat) → Option (List (List Nat) × List (Nat × Nat))
  | [], _, _, idx => some ([], idx)
  | c :: rest, cur, counter, idx =>
    let n := c.numValues counter numValues
    let cut : Option (List Nat × Nat) :=
      if rest = [] then some (levels.drop cur, levels.length) else sliceNext rd levels cur n
    match cut with
    | none => none
    | some (ls, cur') =>
      let idx' : Option (List (Nat × Nat)) :=
        if maxRep > 0 then
          let rows := ((ls.drop 1).filter (· == maxRep)).length
          let left := if rest = [] then 0 else leftovers maxRep ls
          let rows := if rest = [] then rows + 1 else rows
          (fixPrev maxRep ls idx).map ((rows, left) :: ·)
        else some idx
      match idx' with
      | none => none
      | some idx' =>
        match levelsLoop rd levels numValues maxRep rest cur' (counter + n) idx' with
        | none => none
        | some (out, idx'') => some (ls :: out, idx'')

/-- `compress_levels`, primitive.rs 3730-3840: the bytes of the levels of each chunk and the
repetition index, in order; without levels, nothing for each chunk. -/
def compressLevels (rd : RepDefs) (levels : Option (List Nat)) (numValues : Nat) (chunks : List Chunk)
    (maxRep : Nat) : Option (List (List Nat) × List (Nat × Nat)) :=
  match levels with
  | none => some (chunks.map fun _ => [], [])
  | some ls =>
    match levelsLoop rd ls numValues maxRep chunks 0 0 [] with
    | none => none
    | some (out, idx) => some (out.map packLevels, idx.reverse)

/-- Bytes that start at position `pos` of the data buffer, with zeros up to the next multiple of 8. -/
def padded (pos : Nat) (l : List Nat) : List Nat := l ++ List.replicate (pad8 (pos + l.length)) 0

/-- The bytes of one chunk, primitive.rs 3674-3704: the three sizes, the levels, padding, the values,
padding.  (The padding after the repetition levels, to a multiple of 2, is always empty.) -/
def chunkBytes (pos : Nat) (rep d vals : List Nat) (numBytes : Nat) : List Nat :=
  padded pos (padded pos (le16 rep.length ++ le16 d.length ++ le16 numBytes ++ rep ++ d) ++ vals)

/-- The loop of `serialize_miniblocks`, primitive.rs 3668-3716: the bytes written and the metadata
words.  `pos` is the length of the data buffer so far, `data` what is left of the values. -/
def serialize : List Chunk → List (List Nat) → List (List Nat) → Nat → List Nat →
    Option (List Nat × List Nat)
  | c :: cs, rep :: reps, d :: ds, pos, data =>
    if rep.length < 65535 ∧ d.length < 65535 ∧ c.numBytes ≤ data.length then
      let out := chunkBytes pos rep d (data.take c.numBytes) c.numBytes
      if out.length ≤ 16 * 1024 ∧ 0 < out.length ∧ out.length % 8 = 0 then
        let word := (((out.length / 8 - 1) <<< 4) ||| c.logNumValues) % 65536
        match serialize cs reps ds (pos + out.length) (data.drop c.numBytes) with
        | none => none
        | some (bytes, words) => some (out ++ bytes, word :: words)
      else none
    else none
  | _, _, _, _, _ => some ([], [])

/-- A page as written: `EncodedPage` and its `MiniBlockLayout`, primitive.rs 3932-4011.  The
metadata and the repetition index are kept as words, not as bytes.  `repFlat` / `defFlat`: whether
the levels are stored, or described as a constant 0 (primitive.rs 3831-3838). -/
structure Page where
  words : List Nat
  data : List Nat
  repIndex : List Nat
  repFlat : Bool
  defFlat : Bool
  numItems : Nat
  layers : List Layer
  deriving DecidableEq, Repr

/-- `encode_miniblock`, primitive.rs 3889-4012.  No dictionary, and no fixed size lists (the number
of items is the number of values). -/
def writePage {V : Type} (codec : Codec V) (rd : RepDefs) (vals : List V) : Option Page :=
  match codec.compress vals with
  | none => none
  | some c =>
    let maxRep := maxRepOf rd.layers
    match compressLevels rd rd.rep vals.length c.chunks maxRep with
    | none => none
    | some (reps, idx) =>
      match compressLevels rd rd.defs vals.length c.chunks 0 with
      | none => none
      | some (ds, _) =>
        match serialize c.chunks reps ds 0 c.data with
        | none => none
        | some (bytes, words) =>
          some ⟨words, bytes, idx.flatMap fun e => [e.1, e.2], rd.rep.isSome, rd.defs.isSome,
            vals.length, rd.layers⟩

/-! ### The scheduler -/

/-- `ChunkMeta`, primitive.rs 303-307; the offset is from the start of the page's values. -/
structure ChunkMeta where
  numValues : Nat
  size : Nat
  offset : Nat
  deriving DecidableEq, Repr

/-- `MiniBlockScheduler::initialize`, primitive.rs 1615-1645: the metadata words read back. -/
def parseMeta (items : Nat) : List Nat → Nat → Nat → Option (List ChunkMeta)
  | [], _, _ => some []
  | w :: rest, rows, off =>
    let size := (w / 16 + 1) * 8
    let n : Option Nat :=
      if rest = [] then (if rows ≤ items then some (items - rows) else none)
      else some (2 ^ (w % 16))
    match n with
    | none => none
    | some n =>
      match parseMeta items rest (rows + n) (off + size) with
      | none => none
      | some ms => some (⟨n, size, off⟩ :: ms)

/-- `RepIndexBlock`, primitive.rs 1135-1147. -/
structure Block where
  firstRow : Nat
  starts : Nat
  hasPreamble : Bool
  hasTrailer : Bool
  deriving DecidableEq, Repr

/-- `RepetitionIndex::decode`, primitive.rs 1166-1196.  The subtraction at 1181 is of `u64`s: it
panics in a debug build and wraps in a release build when there is nothing to take from; the model
stops. -/
def decodeIndex : List (Nat × Nat) → Bool → Nat → Option (List Block)
  | [], _, _ => some []
  | (ends, part) :: rest, pre, off =>
    let trailer := decide (0 < part)
    let starts := if trailer then ends + 1 else ends
    if pre ∧ starts = 0 then none
    else
      let starts := if pre then starts - 1 else starts
      match decodeIndex rest trailer (off + starts) with
      | none => none
      | some bs => some (⟨off, starts, pre, trailer⟩ :: bs)

/-- `chunks_exact(2)` of the repetition index, primitive.rs 1651-1659. -/
def pairs : List Nat → List (Nat × Nat)
  | a :: b :: rest => (a, b) :: pairs rest
  | _ => []

/-- `PreambleAction`, primitive.rs 1350-1355. -/
inductive Preamble
  | take | skip | absent
  deriving DecidableEq, Repr

/-- `ChunkInstructions`, primitive.rs 1363-1388. -/
structure Instr where
  chunk : Nat
  preamble : Preamble
  skip : Nat
  take : Nat
  trailer : Bool
  deriving DecidableEq, Repr

/-- The block a range starts in, primitive.rs 1428-1447.  A binary search of a sorted array for a
key, followed by the walk back to the first block with it: the first block whose first row is
`start`; and if there is none, the place to insert it, less one. -/
def findBlock (blocks : List Block) (start : Nat) : Option Nat :=
  match blocks.findIdx? (fun b => b.firstRow == start) with
  | some i => some i
  | none =>
    let i := (blocks.takeWhile fun b => decide (b.firstRow < start)).length
    if i = 0 then none else some (i - 1)

/-- The loop of `schedule_instructions`, primitive.rs 1451-1492, from block number `idx` on. -/
def scheduleLoop : List Block → Nat → Nat → Bool → Nat → Option (List Instr)
  | bs, idx, needed, need, skip =>
    if needed = 0 ∧ need = false then some []
    else
      match bs with
      | [] => none
      | b :: rest =>
        if b.starts < skip then none
        else
          let avail := b.starts - skip
          let take := min avail needed
          let preamble := if b.hasPreamble then (if need then Preamble.take else .skip) else .absent
          let trailer := decide (take = avail) && b.hasTrailer
          let noTrailer := if trailer then wsub take 1 else take
          match scheduleLoop rest (idx + 1) (needed - take) trailer 0 with
          | none => none
          | some is => some (⟨idx, preamble, skip, noTrailer, trailer⟩ :: is)

/-- One range of `schedule_instructions`, primitive.rs 1424-1493. -/
def scheduleRange (blocks : List Block) (start stop : Nat) : Option (List Instr) :=
  match findBlock blocks start with
  | none => none
  | some i =>
    match blocks[i]? with
    | none => none
    | some b =>
      if start < b.firstRow then none
      else scheduleLoop (blocks.drop i) i (stop - start) false (start - b.firstRow)

/-- All ranges. -/
def scheduleAll (blocks : List Block) : List (Nat × Nat) → Option (List Instr)
  | [] => some []
  | (s, e) :: rest =>
    match scheduleRange blocks s e, scheduleAll blocks rest with
    | some a, some b => some (a ++ b)
    | _, _ => none

/-- The merge of adjacent instructions, primitive.rs 1503-1514; `last` is the instruction merged
into. -/
def mergeLoop (last : Instr) : List Instr → List Instr
  | [] => [last]
  | i :: rest =>
    if last.chunk = i.chunk ∧ last.take + last.skip = i.skip then
      mergeLoop ⟨last.chunk, last.preamble, last.skip, last.take + i.take, last.trailer || i.trailer⟩ rest
    else last :: mergeLoop i rest

/-- `ChunkInstructions::schedule_instructions`, primitive.rs 1413-1515. -/
def schedule (blocks : List Block) (ranges : List (Nat × Nat)) : Option (List Instr) :=
  match scheduleAll blocks ranges with
  | none => none
  | some is =>
    if 1 < ranges.length then
      match is with
      | [] => none
      | i :: rest => some (mergeLoop i rest)
    else some is

/-- `LoadedChunk`, primitive.rs 739-744, once its data has been read. -/
structure Loaded where
  chunk : Nat
  items : Nat
  data : List Nat
  deriving DecidableEq, Repr

/-- `.unique()` on chunk numbers, primitive.rs 1733-1737: later repetitions are dropped. -/
def uniq : List Nat → List Nat
  | [] => []
  | a :: rest => a :: (uniq rest).filter (· ≠ a)

/-- `lookup_chunks` and the read of the data, primitive.rs 1331-1347, 1738-1758. -/
def loadChunks (metas : List ChunkMeta) (data : List Nat) : List Nat → Option (List Loaded)
  | [] => some []
  | k :: rest =>
    match metas[k]?, loadChunks metas data rest with
    | some m, some ls => (sliceLen data m.offset m.size).map fun bytes => ⟨k, m.numValues, bytes⟩ :: ls
    | _, _ => none

/-! ### The decoder -/

/-- `ChunkDrainInstructions`, primitive.rs 1405-1411. -/
structure Drain where
  instr : Instr
  skip : Nat
  take : Nat
  preamble : Preamble
  deriving DecidableEq, Repr

/-- What `drain_from_instruction` leaves behind. -/
structure DrainState where
  desired : Nat
  need : Bool
  skip : Nat
  deriving DecidableEq, Repr

/-- What to do with a chunk's preamble, primitive.rs 1526-1532.  A preamble that is needed but not
there is a panic. -/
def drainAction : Bool → Preamble → Option Preamble
  | true, .absent => none
  | true, _ => some .take
  | false, .absent => some .absent
  | false, _ => some .skip

/-- `drain_from_instruction`, primitive.rs 1517-1574: what to do, the state after it, and whether the
instruction is used up. -/
def drainOne (i : Instr) (desired : Nat) (need : Bool) (skip : Nat) :
    Option (Drain × DrainState × Bool) :=
  match drainAction need i.preamble with
  | none => none
  | some action =>
    let avail := if i.trailer then wadd (wsub i.take skip) 1 else wsub i.take skip
    if avail ≤ desired then
      some (⟨i, skip, avail, action⟩, ⟨desired - avail, i.trailer, 0⟩, true)
    else some (⟨i, skip, desired, action⟩, ⟨0, false, skip + desired⟩, false)

/-- The loop of `MiniBlockDecoder::drain`, primitive.rs 782-800.  An instruction that is not used up
ends the loop: no rows are then desired and no preamble is needed. -/
def drainLoop : List Instr → List Loaded → Nat → Bool → Nat →
    Option (List (Drain × Loaded) × List Instr × List Loaded × Nat)
  | is, ls, desired, need, skip =>
    if desired = 0 ∧ need = false then some ([], is, ls, skip)
    else
      match is with
      | [] => none
      | i :: rest =>
        match drainOne i desired need skip with
        | none => none
        | some (d, st, consumed) =>
          match ls.dropWhile (fun c => c.chunk ≠ i.chunk) with
          | [] => none
          | c :: cs =>
            if consumed then
              match drainLoop rest (c :: cs) st.desired st.need st.skip with
              | none => none
              | some (ds, is', ls', skip') => some ((d, c) :: ds, is', ls', skip')
            else some ([(d, c)], i :: rest, c :: cs, st.skip)

/-- A decoded page: levels (absent when none are stored) and values, primitive.rs 694-735.  The
unraveling of the levels into validity and offsets is not part of this model. -/
structure Out (V : Type) where
  rep : Option (List Nat)
  defs : Option (List Nat)
  data : List V
  deriving DecidableEq, Repr

/-- The search for the first row of a chunk, primitive.rs 447-459, 461-463: its position, and the
items before it. -/
def firstRow (maxRep maxVis : Nat) : List (Nat × Nat) → Nat → Nat → Option Nat × Nat
  | [], _, items => (none, items)
  | (r, d) :: rest, idx, items =>
    if r = maxRep then (some idx, items)
    else firstRow maxRep maxVis rest (idx + 1) (if d ≤ maxVis then items + 1 else items)

/-- The first loop of `map_range` with definition levels, primitive.rs 504-519: rows seen, invisible
items seen, where the items start, where the levels start. -/
def leadLoop (maxRep maxVis start : Nat) : List (Nat × Nat) → Nat → Nat → Nat → Nat × Nat × Nat × Nat
  | [], _, rows, lead => (rows, lead, 0, 0)
  | (r, d) :: rest, idx, rows, lead =>
    if r = maxRep then
      if rows + 1 = start then (rows + 1, lead, idx + 1 - lead, idx + 1)
      else leadLoop maxRep maxVis start rest (idx + 1) (rows + 1) (if d > maxVis then lead + 1 else lead)
    else leadLoop maxRep maxVis start rest (idx + 1) rows lead

/-- The second loop of `map_range` with definition levels, primitive.rs 527-545: the ends of the items
and of the levels if they are found, and the invisible items seen. -/
def tailLoop (maxRep maxVis stop newStart newLevels : Nat) :
    List (Nat × Nat) → Nat → Nat → Nat → Option (Nat × Nat) × Nat
  | [], _, _, tail => (none, tail)
  | (r, d) :: rest, idx, rows, tail =>
    if r = maxRep then
      if rows + 1 = stop + 1 then (some (idx + newStart + 1 - tail, idx + newLevels + 1), tail)
      else tailLoop maxRep maxVis stop newStart newLevels rest (idx + 1) (rows + 1)
        (if d > maxVis then tail + 1 else tail)
    else tailLoop maxRep maxVis stop newStart newLevels rest (idx + 1) rows tail

/-- The loops of `map_range` without definition levels, primitive.rs 580-604: the position of the
`target`-th row start, and the rows seen. -/
def rowLoop (maxRep target : Nat) : List Nat → Nat → Nat → Option Nat × Nat
  | [], _, rows => (none, rows)
  | r :: rest, idx, rows =>
    if r = maxRep then
      if rows + 1 = target then (some idx, rows + 1) else rowLoop maxRep target rest (idx + 1) (rows + 1)
    else rowLoop maxRep target rest (idx + 1) rows

/-- `map_range` past the preamble, with definition levels, primitive.rs 489-571.  `rd`: the levels of
the chunk from its first row on, which starts at `frs`. -/
def mapDef (start stop : Nat) (rd : List (Nat × Nat)) (frs maxRep maxVis : Nat) (action : Preamble) :
    Option ((Nat × Nat) × (Nat × Nat)) :=
  match rd with
  | [] => none
  | (_, d0) :: tl =>
    let (rows, lead, ns, nl) :=
      if 0 < start then leadLoop maxRep maxVis start tl 0 0 (if d0 > maxVis then 1 else 0)
      else (0, 0, 0, 0)
    match rd[nl]? with
    | none => none
    | some (_, dn) =>
      let (found, tail) := tailLoop maxRep maxVis stop ns nl (rd.drop (nl + 1)) 0 (rows + 1)
        (if dn ≤ maxVis then 0 else 1)
      let (ne, nle) :=
        match found with
        | some p => p
        | none => (rd.length - (lead + tail), rd.length)
      match action with
      | .skip => some ((ns + frs, ne + frs), (nl + frs, nle + frs))
      | .take => some ((ns, ne + frs), (nl, nle + frs))
      | .absent => some ((ns, ne), (nl, nle))

/-- Where the range starts without definition levels, primitive.rs 577-589: the position, and the rows
seen. -/
def repStart (maxRep start : Nat) (rep : List Nat) : Nat × Nat :=
  if 0 < start then
    match rowLoop maxRep start (rep.drop 1) 0 0 with
    | (some idx, rows) => (idx + 1, rows)
    | (none, rows) => (0, rows)
  else (0, 0)

/-- Where the range ends without definition levels, primitive.rs 590-602. -/
def repEnd (maxRep stop total newStart rows : Nat) (rep : List Nat) : Nat :=
  if stop < total then
    match (rowLoop maxRep stop (rep.drop (newStart + 1)) 0 rows).1 with
    | some idx => idx + newStart + 1
    | none => rep.length
  else rep.length

/-- `map_range` past the preamble, without definition levels, primitive.rs 572-605. -/
def mapRep (start stop : Nat) (rep : List Nat) (frs maxRep total : Nat) (action : Preamble) :
    Option ((Nat × Nat) × (Nat × Nat)) :=
  let ns := (repStart maxRep start rep).1
  let rows := (repStart maxRep start rep).2
  if stop < total ∧ rep.length < ns + 1 then none
  else
    let ne := repEnd maxRep stop total ns rows rep
    match action with
    | .skip => some ((ns + frs, ne + frs), (ns + frs, ne + frs))
    | .take => some ((ns, ne + frs), (ns, ne + frs))
    | .absent => some ((ns, ne), (ns, ne))

/-- The levels of a chunk as pairs, primitive.rs 446-463; without definition levels every item counts
as visible. -/
def levelPairs (rep : List Nat) : Option (List Nat) → List (Nat × Nat)
  | some ds => rep.zip ds
  | none => rep.map fun r => (r, 0)

/-- `DecodeMiniBlockTask::map_range`, primitive.rs 429-612: the items and the levels that a range of
rows of a chunk stands for. -/
def mapRange (start stop : Nat) (rep defs : Option (List Nat)) (maxRep maxVis total : Nat)
    (action : Preamble) : Option ((Nat × Nat) × (Nat × Nat)) :=
  match rep with
  | none => some ((start, stop), (start, stop))
  | some rep =>
    let first : Option Nat × Nat :=
      if action = .absent then (some 0, 0) else firstRow maxRep maxVis (levelPairs rep defs) 0 0
    match first with
    | (none, _) => if action = .take then some ((0, total), (0, rep.length)) else none
    | (some frs, items) =>
      if start = stop then some ((0, items), (0, frs))
      else if stop < start then none
      else
        match defs with
        | some ds => mapDef start stop ((rep.drop frs).zip (ds.drop frs)) frs maxRep maxVis action
        | none => mapRep start stop (rep.drop frs) frs maxRep total action

/-- A slice `[a..b]`, which panics out of range. -/
def slice {A : Type} (l : List A) (r : Nat × Nat) : Option (List A) :=
  if r.1 ≤ r.2 ∧ r.2 ≤ l.length then some ((l.drop r.1).take (r.2 - r.1)) else none

/-- `extend_levels`, primitive.rs 365-391. -/
def extendLevels (range : Nat × Nat) (levels buf : Option (List Nat)) (dest : Nat) :
    Option (Option (List Nat)) :=
  match buf, levels with
  | some b, none => (slice b range).map fun s => some (List.replicate dest 0 ++ s)
  | some b, some ls => (slice b range).map fun s => some (ls ++ s)
  | none, some ls => some (some (ls ++ List.replicate (range.2 - range.1) 0))
  | none, none => some none

/-- `decode_miniblock_chunk`, primitive.rs 615-647: levels and values of a chunk. -/
def decodeChunk {V : Type} (codec : Codec V) (repFlat defFlat : Bool) (buf : List Nat) (items : Nat) :
    Option (Option (List Nat) × Option (List Nat) × List V) :=
  match buf with
  | r0 :: r1 :: d0 :: d1 :: v0 :: v1 :: _ =>
    let bytesRep := un16 r0 r1
    let bytesDef := un16 d0 d1
    let bytesVal := un16 v0 v1
    let p1 := bytesRep % 2
    let p2 := pad8 (6 + bytesRep + p1 + bytesDef)
    match sliceLen buf 6 bytesRep, sliceLen buf (6 + bytesRep + p1) bytesDef,
        sliceLen buf (6 + bytesRep + bytesDef + p2) bytesVal with
    | some rep, some d, some vals =>
      (codec.decompress vals items).map fun vs =>
        (if repFlat then some (unpackLevels rep) else none,
          if defFlat then some (unpackLevels d) else none, vs)
    | _, _, _ => none
  | _ => none

/-- `max_visible_level` of the reader, primitive.rs 805-810. -/
def maxVisibleRead (layers : List Layer) : Nat :=
  ((layers.takeWhile fun l => !l.isList).map Layer.defLevels).sum

/-- The loop of `DecodeMiniBlockTask::decode`, primitive.rs 672-702. -/
def decodeLoop {V : Type} (codec : Codec V) (p : Page) :
    List (Drain × Loaded) → Out V → Nat → Option (Out V)
  | [], out, _ => some out
  | (d, c) :: rest, out, off =>
    match decodeChunk codec p.repFlat p.defFlat c.data c.items with
    | none => none
    | some (rep, defs, vals) =>
      let start := d.skip + d.instr.skip
      let stop := start + d.take
      match mapRange start stop rep defs (maxRepOf p.layers) (maxVisibleRead p.layers) c.items d.preamble with
      | none => none
      | some (items, levels) =>
        match extendLevels levels out.rep rep off, extendLevels levels out.defs defs off, slice vals items with
        | some r, some ds, some vs =>
          decodeLoop codec p rest ⟨r, ds, out.data ++ vs⟩ (off + (levels.2 - levels.1))
        | _, _, _ => none

/-- `DecodeMiniBlockTask::decode`, primitive.rs 650-735.  Without any instruction the builder has
"seen no data" and panics (data.rs 1591). -/
def decodeTask {V : Type} (codec : Codec V) (p : Page) (task : List (Drain × Loaded)) : Option (Out V) :=
  if task = [] then none else decodeLoop codec p task ⟨none, none, []⟩ 0

/-- The batches of a read, one `drain` each (primitive.rs 778-800) followed by its decode. -/
def batchLoop {V : Type} (codec : Codec V) (p : Page) :
    List Nat → List Instr → List Loaded → Nat → Option (List (Out V))
  | [], _, _, _ => some []
  | n :: rest, is, ls, skip =>
    match drainLoop is ls n false skip with
    | none => none
    | some (task, is', ls', skip') =>
      match decodeTask codec p task, batchLoop codec p rest is' ls' skip' with
      | some o, some os => some (o :: os)
      | _, _ => none

/-- The repetition index that the scheduler works with, primitive.rs 1647-1667: the stored one, or
the number of values of each chunk. -/
def indexOf (p : Page) (metas : List ChunkMeta) : List (Nat × Nat) :=
  if p.repIndex = [] then metas.map fun m => (m.numValues, 0) else pairs p.repIndex

/-- `initialize`, `schedule_ranges` (primitive.rs 1577-1776) and the decoding of the batches: read
some ranges of rows from a page in batches of the given numbers of rows. -/
def readPage {V : Type} (codec : Codec V) (p : Page) (ranges : List (Nat × Nat)) (batches : List Nat) :
    Option (List (Out V)) :=
  match parseMeta p.numItems p.words 0 0 with
  | none => none
  | some metas =>
    match decodeIndex (indexOf p metas) false 0 with
    | none => none
    | some blocks =>
      match schedule blocks ranges with
      | none => none
      | some is =>
        match loadChunks metas p.data (uniq (is.map Instr.chunk)) with
        | none => none
        | some ls => batchLoop codec p batches is ls 0

/-! ### Fixed width values stored as they are -/

/-- The loop of `find_log_vals_per_chunk`, value.rs 239-243.  `fuel` bounds the number of doublings
(there are at most eleven, as the number of values stays below 4096). -/
def logLoop : Nat → Nat → Nat → Nat → Nat × Nat
  | 0, _, log, num => (log, num)
  | fuel + 1, size, log, num =>
    if 2 * size < 8186 ∧ 2 * num < 4096 then logLoop fuel (size * 2) (log + 1) (num * 2) else (log, num)

/-- `find_log_vals_per_chunk`, value.rs 231-246. -/
def findLog (bytesPerValue : Nat) : Option (Nat × Nat) :=
  if 2 * bytesPerValue < 8186 then some (logLoop 12 (2 * bytesPerValue) 1 2) else none

/-- The loop of `ValueEncoder::chunk_data`, value.rs 264-283; `vals` counts the values left, `bytes`
the bytes left, `fuel` bounds the number of chunks. -/
def valueChunks (log num bytesPer : Nat) : Nat → Nat → Nat → Option (List Chunk)
  | 0, _, _ => none
  | fuel + 1, vals, bytes =>
    if num ≤ vals then
      (valueChunks log num bytesPer fuel (vals - num) (bytes - bytesPer)).map (⟨bytesPer, log⟩ :: ·)
    else if bytes < 65536 then some [⟨bytes, 0⟩] else none

/-- `ValueEncoder::chunk_data`, value.rs 248-290. -/
def valueCompress (bpv : Nat) (vals : List (List Nat)) : Option Compressed :=
  match findLog bpv with
  | none => none
  | some (log, num) =>
    if bpv * num < 65536 then
      (valueChunks log num (bpv * num) (vals.length + 1) vals.length vals.flatten.length).map (⟨vals.flatten, ·⟩)
    else none

/-- The values of a fixed width block: the buffer cut every `bpv` bytes. -/
def cutValues (bpv : Nat) : Nat → List Nat → List (List Nat)
  | 0, _ => []
  | n + 1, bytes => bytes.take bpv :: cutValues bpv n (bytes.drop bpv)

/-- `ValueDecompressor::decompress`, value.rs 432-436. -/
def valueDecompress (bpv : Nat) (bytes : List Nat) (n : Nat) : Option (List (List Nat)) :=
  if bytes.length = n * bpv then some (cutValues bpv n bytes) else none

/-- Fixed width values of `bpv` bytes, each a list of bytes, stored as they are. -/
def valueCodec (bpv : Nat) : Codec (List Nat) := ⟨valueCompress bpv, valueDecompress bpv⟩

end Verif.Mini
