import Verif.Mini.Model
/-!
# Full-zip pages (file format 2.1)

A column of wide values (vectors, long strings) is written in format 2.1 as *full-zip* pages: each value is stored right
after a *control word* that holds its repetition and definition level, so that a row can be read on its own.  If the
values have no fixed width, or if there are lists, a *repetition index* says where each row starts.

Modelled from `rust/lance-encoding/src/encodings/logical/primitive.rs` (writer 4015-4272, scheduler 1779-2096, decoders
2098-2627), `repdef.rs` 1605-2297 (control words), `utils/bytepack.rs` and `rust/lance-core/src/utils/bit.rs` 20-60.

Panics are `none`; `debug_assert`s are not modelled.  A byte is a `Nat` below 256.  Layers and levels are those of
`Verif.Mini.Model`.
-/
namespace Verif.Zip
open Verif.Mini (Layer RepDefs Out maxRepOf sliceLen)

/-! ### Control words -/

/-- `LOG_TABLE_256`, bit.rs 24-33, written with `Nat.log2`. -/
def logTable (v : Nat) : Nat := if v = 0 then 0 else Nat.log2 v + 1

/-- `log_2_ceil`, bit.rs 38-60: the number of bits of a 32 bit integer that is not 0. -/
def log2Ceil (v : Nat) : Nat :=
  if v / 65536 = 0 then
    if v / 256 = 0 then logTable v else logTable (v / 256) + 8
  else if v / 65536 / 256 = 0 then 16 + logTable (v / 65536)
  else 24 + logTable (v / 65536 / 256)

/-- The width of levels up to the given one, repdef.rs 1884-1895. -/
def widthOf (maxLevel : Nat) : Nat := if maxLevel = 0 then 0 else log2Ceil maxLevel

/-- `get_mask`, repdef.rs 1767-1769, on `u16`s: shifting by 16 is an overflow. -/
def getMask (width : Nat) : Option Nat := if width < 16 then some (2 ^ width - 1) else none

/-- The mask of levels up to the given one, repdef.rs 1889 and 1895. -/
def maskOf (maxLevel : Nat) : Option Nat := if maxLevel = 0 then some 0 else getMask (widthOf maxLevel)

/-- `ControlWordDesc`, repdef.rs 1798-1804. -/
structure Desc where
  newRow : Bool
  visible : Bool
  valid : Bool
  deriving DecidableEq, Repr

/-- The little endian bytes of an unsigned integer of `n` bytes. -/
def leBytes : Nat → Nat → List Nat
  | 0, _ => []
  | n + 1, x => (x % 256) :: leBytes n (x / 256)

/-- The unsigned integer of some little endian bytes. -/
def ofBytes : List Nat → Nat
  | [] => 0
  | b :: bs => b + 256 * ofBytes bs

/-- The bytes of a control word of some bits, repdef.rs 1901-1937 and 2273-2279. -/
def wordBytes (total : Nat) : Nat := if total ≤ 8 then 1 else if total ≤ 16 then 2 else 4

/-- `ControlWordIterator`, repdef.rs 1787-1796: the control words that are yet to come, each with its description. -/
structure Words where
  bytesPerWord : Nat
  bitsRep : Nat
  bitsDef : Nat
  words : List (List Nat × Desc)
  deriving DecidableEq, Repr

/-- `BinaryControlWordIterator::append_next`, repdef.rs 1625-1681.  The word is computed in an integer of its size. -/
def binaryWord (size defWidth repMask defMask maxRep maxVis : Nat) (x : Nat × Nat) : List Nat × Desc :=
  (leBytes size ((x.1 &&& repMask) * 2 ^ defWidth + (x.2 &&& defMask)),
    ⟨decide (x.1 = maxRep), decide (x.2 ≤ maxVis), decide (x.2 = 0)⟩)

/-- `UnaryControlWordIterator::append_next`, repdef.rs 1693-1743.  (The version for 16 bits describes the masked level;
the mask keeps all levels.) -/
def unaryWord (size mask maxRep bitsDef : Nat) (x : Nat) : List Nat × Desc :=
  (leBytes size (x &&& mask), ⟨decide (maxRep = 0) || decide (x = maxRep), true, decide (x = 0) || decide (bitsDef = 0)⟩)

/-- The words of one kind of levels.  The iterator for words of 16 bits panics at the end (the `unwrap` in repdef.rs
1711), where the writer always gets to. -/
def unaryWords (size mask maxRep bitsRep bitsDef : Nat) (levels : List Nat) : Option Words :=
  if size = 2 then none else some ⟨size, bitsRep, bitsDef, levels.map (unaryWord size mask maxRep bitsDef)⟩

/-- `build_control_word_iterator`, repdef.rs 1876-2003.  `bits_rep` and `bits_def` are those of the iterator. -/
def controlWords (rep defs : Option (List Nat)) (maxRep maxDef maxVis len : Nat) : Option Words :=
  match maskOf maxRep, maskOf maxDef with
  | some repMask, some defMask =>
    let total := widthOf maxRep + widthOf maxDef
    match rep, defs with
    | some rs, some ds =>
      some ⟨wordBytes total, widthOf maxRep, widthOf maxDef,
        (rs.zip ds).map (binaryWord (wordBytes total) (widthOf maxDef) repMask defMask maxRep maxVis)⟩
    | some rs, none => unaryWords (wordBytes total) repMask maxRep total 0 rs
    | none, some ds => unaryWords (wordBytes total) defMask 0 0 total ds
    | none, none => some ⟨0, 0, 0, List.replicate len ([], ⟨true, true, true⟩)⟩
  | _, _ => none

/-- `ControlWordParser`, repdef.rs 2008-2022 and 2175-2189: which levels a word has, its size, and the width of the
definition level. -/
structure Parser where
  hasRep : Bool
  hasDef : Bool
  size : Nat
  defWidth : Nat
  deriving DecidableEq, Repr

/-- `ControlWordParser::new`, repdef.rs 2263-2296.  (The masks, computed there, are computed in `Parser.levels`.) -/
def Parser.new (bitsRep bitsDef : Nat) : Parser :=
  ⟨decide (0 < bitsRep), decide (0 < bitsDef), if bitsRep = 0 ∧ bitsDef = 0 then 0 else wordBytes (bitsRep + bitsDef), bitsDef⟩

/-- The levels in the word at the start of a buffer, repdef.rs 2025-2056 (`parse_both`), 2109-2125 (`parse_one`) and 2191-2210; an
absent one is `none`.  A buffer that is too short panics. -/
def Parser.levels (p : Parser) (src : List Nat) : Option (Option Nat × Option Nat) :=
  if src.length < p.size then none
  else
    let w := ofBytes (src.take p.size)
    match p.hasRep, p.hasDef with
    | true, true => some (some (w / 2 ^ p.defWidth % 65536), some ((w &&& (2 ^ p.defWidth - 1)) % 65536))
    | true, false => some (some (w % 65536), none)
    | false, true => some (none, some (w % 65536))
    | false, false => some (none, none)

/-- `ControlWordParser::parse_desc`, repdef.rs 2058-2107, 2127-2167 and 2226-2261. -/
def Parser.desc (p : Parser) (src : List Nat) (maxRep maxVis : Nat) : Option Desc :=
  (p.levels src).map fun x =>
    ⟨x.1.all fun r => r == maxRep, match x.1, x.2 with | some _, some d => decide (d ≤ maxVis) | _, _ => true,
      x.2.all fun d => d == 0⟩

/-! ### The writer -/

/-- `BytepackedIntegerEncoder::with_capacity`, bytepack.rs 91-104: the bytes of each integer. -/
def packWidth (maxValue : Nat) : Nat :=
  if maxValue = 0 then 0 else if maxValue ≤ 255 then 1 else if maxValue ≤ 65535 then 2
  else if maxValue ≤ 4294967295 then 4 else 8

/-- The integers as bytes, bytepack.rs 113-133. -/
def packIndex (maxValue : Nat) (xs : List Nat) : List Nat := xs.flatMap (leBytes (packWidth maxValue))

/-- The loop of `serialize_full_zip_fixed`, primitive.rs 4043-4067: the zipped bytes, and where the rows start (and the end),
where `pos` bytes were written before. -/
def zipFixed : List (List Nat × Desc) → List (List Nat) → Nat → Option (List Nat × List Nat)
  | [], _, pos => some ([], [pos])
  | (w, d) :: ws, vals, pos =>
    if d.visible then
      match vals with
      | [] => none
      | v :: vs => (zipFixed ws vs (pos + w.length + v.length)).map fun r =>
          (w ++ v ++ r.1, if d.newRow then pos :: r.2 else r.2)
    else (zipFixed ws vals (pos + w.length)).map fun r => (w ++ r.1, if d.newRow then pos :: r.2 else r.2)

/-- The loop of `serialize_full_zip_variable`, primitive.rs 4104-4127 and 4155-4163, for 32 bit offsets: the length goes before the value;
null items get neither.  The values are the slices between the offsets. -/
def zipVariable : List (List Nat × Desc) → List (List Nat) → Nat → Option (List Nat × List Nat)
  | [], _, pos => some ([], [pos])
  | (w, d) :: ws, vals, pos =>
    if d.visible then
      match vals with
      | [] => none
      | v :: vs =>
        let body := if d.valid then leBytes 4 v.length ++ v else []
        (zipVariable ws vs (pos + w.length + body.length)).map fun r =>
          (w ++ body ++ r.1, if d.newRow then pos :: r.2 else r.2)
    else (zipVariable ws vals (pos + w.length)).map fun r => (w ++ r.1, if d.newRow then pos :: r.2 else r.2)

/-- A full-zip page: its description (`full_zip_layout`), its number of rows, and its buffers. -/
structure Page where
  bitsRep : Nat
  bitsDef : Nat
  layers : List Layer
  rows : Nat
  data : List Nat
  index : Option (List Nat)
  deriving DecidableEq, Repr

/-- The largest level, primitive.rs 4199-4206. -/
def maxLevel (levels : Option (List Nat)) : Nat := (levels.getD []).foldl max 0

/-- The control words of a page, primitive.rs 4198-4232. -/
def pageWords (rd : RepDefs) (numValues : Nat) : Option Words :=
  controlWords rd.rep rd.defs (maxLevel rd.rep) (maxLevel rd.defs) (rd.maxVisible.getD 65535)
    (match rd.rep with | some rs => rs.length | none => numValues)

/-- `has_repetition`, repdef.rs 1822-1831. -/
def Words.hasRep (w : Words) (rd : RepDefs) : Bool :=
  match rd.rep, rd.defs with
  | some _, some _ => true
  | some _, none => decide (0 < w.bitsRep)
  | _, _ => false

/-- The number of items, primitive.rs 4213-4221. -/
def numItems (rd : RepDefs) (numValues : Nat) : Nat := match rd.rep with | some rs => rs.length | none => numValues

/-- `encode_full_zip` (primitive.rs 4189-4276) with `serialize_full_zip_fixed` (4016-4077) for values of a fixed width, of
`rows` rows. -/
def writeFixed (rd : RepDefs) (vals : List (List Nat)) (rows : Nat) : Option Page :=
  match pageWords rd vals.length with
  | none => none
  | some w =>
    let len := vals.flatten.length + w.bytesPerWord * numItems rd vals.length
    (zipFixed w.words vals 0).map fun r =>
      let index := packIndex (if w.hasRep rd then len else 0) r.2
      ⟨w.bitsRep, w.bitsDef, rd.layers, rows, r.1, if index = [] then none else some index⟩

/-- `encode_full_zip` with `serialize_full_zip_variable` (primitive.rs 4082-4170) for strings with 32 bit offsets (64 bit
offsets are `todo!` in `create_per_value`, encoder.rs 905). -/
def writeVariable (rd : RepDefs) (vals : List (List Nat)) (rows : Nat) : Option Page :=
  match pageWords rd vals.length with
  | none => none
  | some w =>
    let len := vals.flatten.length + w.bytesPerWord * numItems rd vals.length + 4 * vals.length
    (zipVariable w.words vals 0).map fun r =>
      ⟨w.bitsRep, w.bitsDef, rd.layers, rows, r.1, some (packIndex len r.2)⟩

/-! ### The scheduler -/

/-- `max_visible_def` of the reader, primitive.rs 1876-1880: over all layers that are no lists. -/
def maxVisibleZip (layers : List Layer) : Nat := ((layers.filter fun l => !l.isList).map Layer.defLevels).sum

/-- A range of bytes of a buffer (`submit_request`). -/
def fetch (buf : List Nat) (s e : Nat) : Option (List Nat) := if s ≤ e then sliceLen buf s (e - s) else none

/-- `ByteUnpacker::new`, bytepack.rs 145-153: sizes other than 1, 2, 4 and 8 panic. -/
def packSize (n : Nat) : Bool := n == 1 || n == 2 || n == 4 || n == 8

/-- The byte range of an item range, primitive.rs 1990-2001 (the two entries of the index) and 1916-1931 (their values). -/
def indexRange (index : List Nat) (width : Nat) (r : Nat × Nat) : Option (Nat × Nat) :=
  match fetch index (r.1 * width) (r.1 * width + width), fetch index (r.2 * width) (r.2 * width + width) with
  | some a, some b => some (ofBytes a, ofBytes b)
  | _, _ => none

/-- The bytes of some ranges of items, by the repetition index: `schedule_ranges_rep` and `indirect_schedule_ranges`,
primitive.rs 1906-2016, with the width of the entries from `try_new`, 1832-1846.  The positions of the buffers in the file
are left out. -/
def fetchRep (p : Page) (itemsPerRow : Nat) (index : List Nat) (ranges : List (Nat × Nat)) : Option (List (List Nat)) :=
  let width := index.length / (itemsPerRow * p.rows + 1)
  if packSize width then
    ranges.mapM fun r =>
      match indexRange index width (r.1 * itemsPerRow, r.2 * itemsPerRow) with
      | none => none
      | some (s, e) => fetch p.data s e
  else none

/-- The bytes of some ranges of items of a fixed width: `schedule_ranges_simple`, primitive.rs 2020-2071. -/
def fetchSimple (p : Page) (itemsPerRow total : Nat) (ranges : List (Nat × Nat)) : Option (List (List Nat)) :=
  ranges.mapM fun r => fetch p.data (r.1 * itemsPerRow * total) (r.2 * itemsPerRow * total)

/-! ### The decoder of values of a fixed width -/

/-- The loop of `slice_next_task`, primitive.rs 2119-2144: how many bytes to take for `want` rows, the number of items, and
the number of rows. -/
def sliceLoop (ps : Parser) (maxRep maxVis bpv want : Nat) : Nat → List Nat → Nat → Nat → Nat → Option (Nat × Nat × Nat)
  | 0, _, started, items, off => some (off, items, started)
  | fuel + 1, buf, started, items, off =>
    if off < buf.length then
      match ps.desc (buf.drop off) maxRep maxVis with
      | none => none
      | some d =>
        if d.newRow && started == want then some (off, items, started)
        else sliceLoop ps maxRep maxVis bpv want fuel buf (if d.newRow then started + 1 else started) (items + 1)
          (off + (if d.visible then ps.size + bpv else ps.size))
    else some (off, items, started)

/-- A `FullZipDecodeTaskItem`, primitive.rs 2508-2513. -/
structure Task where
  bytes : List Nat
  rows : Nat
  items : Nat
  deriving DecidableEq, Repr

/-- `slice_next_task`, primitive.rs 2115-2193.  Instead of an offset into the current buffer the model keeps what is left of
it; a buffer that is used up is removed. -/
def sliceTask (ps : Parser) (maxRep maxVis bpv want : Nat) (bufs : List (List Nat)) : Option (Task × List (List Nat)) :=
  match bufs with
  | [] => none
  | buf :: rest =>
    if ps.hasRep then
      match sliceLoop ps maxRep maxVis bpv want buf.length buf 0 0 0 with
      | none => none
      | some (off, items, started) =>
        if off ≤ buf.length then
          some (⟨buf.take off, started, items⟩, if off = buf.length then rest else buf.drop off :: rest)
        else none
    else
      let need := want * (ps.size + bpv)
      if need ≥ buf.length then
        some (⟨buf, buf.length / (ps.size + bpv), buf.length / (ps.size + bpv)⟩, rest)
      else some (⟨buf.take need, want, want⟩, buf.drop need :: rest)

/-- The loop of `FixedFullZipDecoder::drain`, primitive.rs 2199-2204.  The counter bounds the number of rounds; without
progress the code does not stop (or panics), and the model gives up. -/
def drainLoop (ps : Parser) (maxRep maxVis bpv : Nat) : Nat → Nat → List (List Nat) → Option (List Task × List (List Nat))
  | _, 0, bufs => some ([], bufs)
  | 0, _ + 1, _ => none
  | fuel + 1, want + 1, bufs =>
    match sliceTask ps maxRep maxVis bpv (want + 1) bufs with
    | none => none
    | some (t, bufs') => (drainLoop ps maxRep maxVis bpv fuel (want + 1 - t.rows) bufs').map fun r => (t :: r.1, r.2)

/-- The unzipping loop of `FixedFullZipDecodeTask::decode`, primitive.rs 2578-2597: repetition levels, definition levels and
values.  (`def.last()` is the level just read, if there are definition levels.) -/
def unzipLoop (ps : Parser) (maxVis bpv : Nat) : Nat → List Nat → Option (List Nat × List Nat × List (List Nat))
  | 0, _ => some ([], [], [])
  | n + 1, buf =>
    match ps.levels buf with
    | none => none
    | some (r, d) =>
      let buf' := buf.drop ps.size
      if d.all (fun x => decide (x ≤ maxVis)) then
        if buf'.length < bpv then none
        else (unzipLoop ps maxVis bpv n (buf'.drop bpv)).map fun x =>
          (r.toList ++ x.1, d.toList ++ x.2.1, buf'.take bpv :: x.2.2)
      else (unzipLoop ps maxVis bpv n buf').map fun x => (r.toList ++ x.1, d.toList ++ x.2.1, x.2.2)

/-- The first `n` values of `bpv` bytes (the fast path, primitive.rs 2537-2553: `data_builder.append`). -/
def cutFixed (bpv : Nat) : Nat → List Nat → Option (List (List Nat))
  | 0, _ => some []
  | n + 1, buf => if buf.length < bpv then none else (cutFixed bpv n (buf.drop bpv)).map (buf.take bpv :: ·)

/-- An absent buffer for an empty one, primitive.rs 2613-2614. -/
def someLevels (l : List Nat) : Option (List Nat) := if l = [] then none else some l

/-- `FixedFullZipDecodeTask::decode`, primitive.rs 2525-2626.  Without any task the builder has "seen no data" and panics. -/
def decodeTasks (ps : Parser) (maxVis bpv : Nat) (tasks : List Task) : Option (Out (List Nat)) :=
  if tasks = [] then none
  else if ps.size = 0 then
    (tasks.mapM fun t => cutFixed bpv t.items t.bytes).map fun vs => ⟨none, none, vs.flatten⟩
  else
    (tasks.mapM fun t => unzipLoop ps maxVis bpv t.items t.bytes).map fun xs =>
      ⟨someLevels (xs.flatMap (·.1)), someLevels (xs.flatMap (·.2.1)), xs.flatMap (·.2.2)⟩

/-- The batches of a read, one `drain` each (primitive.rs 2196-2216) followed by its decode. -/
def batchFixed (ps : Parser) (maxRep maxVis bpv itemsPerRow : Nat) : List Nat → List (List Nat) → Option (List (Out (List Nat)))
  | [], _ => some []
  | n :: rest, bufs =>
    match drainLoop ps maxRep maxVis bpv (n * itemsPerRow) (n * itemsPerRow) bufs with
    | none => none
    | some (tasks, bufs') =>
      match decodeTasks ps maxVis bpv tasks, batchFixed ps maxRep maxVis bpv itemsPerRow rest bufs' with
      | some o, some os => some (o :: os)
      | _, _ => none

/-- Read some ranges of rows of a page of values of `bpv` bytes, in batches of the given numbers of rows: `schedule_ranges`
(primitive.rs 2085-2095) and the batches.  `itemsPerRow` is the product of the dimensions of fixed size lists. -/
def readFixed (bpv itemsPerRow : Nat) (p : Page) (ranges : List (Nat × Nat)) (batches : List Nat) :
    Option (List (Out (List Nat))) :=
  let ps := Parser.new p.bitsRep p.bitsDef
  let bufs := match p.index with
    | some index => fetchRep p itemsPerRow index ranges
    | none => fetchSimple p itemsPerRow (bpv + ps.size) ranges
  match bufs with
  | none => none
  | some bufs => batchFixed ps (maxRepOf p.layers) (maxVisibleZip p.layers) bpv itemsPerRow batches bufs

/-! ### The decoder of strings -/

/-- What `VariableFullZipDecoder` holds, primitive.rs 2223-2238. -/
structure Unzipped where
  data : List Nat
  offsets : List Nat
  rep : List Nat
  defs : List Nat
  repdefStarts : List Nat
  offsetStarts : List Nat
  visibleCounts : List Nat
  deriving DecidableEq, Repr

def Unzipped.empty : Unzipped := ⟨[], [], [], [], [], [], []⟩

/-- One round of the loop of `unzip`, primitive.rs 2350-2402: what is left of the buffer, and what was unzipped.  Offsets
are kept as numbers (modulo 2^32, as they are written as 32 bit integers); `cur` is the length of the data so far, which is
`current_offset`, and the number of offsets so far is the number of visible items. -/
def unzipOne (ps : Parser) (maxRep maxVis : Nat) (buf : List Nat) (u : Unzipped) : Option (List Nat × Unzipped) :=
  match ps.levels buf, ps.desc buf maxRep maxVis with
  | some (r, d), some desc =>
    let buf' := buf.drop ps.size
    let start := max u.rep.length u.defs.length
    let u' : Unzipped := ⟨u.data, u.offsets, u.rep ++ r.toList, u.defs ++ d.toList,
      if desc.newRow then u.repdefStarts ++ [start] else u.repdefStarts,
      if desc.newRow then u.offsetStarts ++ [u.offsets.length] else u.offsetStarts,
      if desc.newRow then u.visibleCounts ++ [u.offsets.length] else u.visibleCounts⟩
    if desc.visible then
      let offs := u.offsets ++ [u.data.length % 2 ^ 32]
      if desc.valid then
        if buf'.length < 4 then none
        else
          let len := ofBytes (buf'.take 4)
          if buf'.length < 4 + len then none
          else some (buf'.drop (4 + len), ⟨u.data ++ (buf'.drop 4).take len, offs, u'.rep, u'.defs, u'.repdefStarts,
            u'.offsetStarts, u'.visibleCounts⟩)
      else some (buf', ⟨u.data, offs, u'.rep, u'.defs, u'.repdefStarts, u'.offsetStarts, u'.visibleCounts⟩)
    else some (buf', u')
  | _, _ => none

/-- The loop over one buffer.  Each round takes at least one byte, or else the code would not stop. -/
def unzipBuf (ps : Parser) (maxRep maxVis : Nat) : Nat → List Nat → Unzipped → Option Unzipped
  | _, [], u => some u
  | 0, _ :: _, _ => none
  | fuel + 1, b :: bs, u =>
    match unzipOne ps maxRep maxVis (b :: bs) u with
    | none => none
    | some (buf', u') => unzipBuf ps maxRep maxVis fuel buf' u'

/-- The loop over the buffers. -/
def unzipBufs (ps : Parser) (maxRep maxVis : Nat) : List (List Nat) → Unzipped → Option Unzipped
  | [], u => some u
  | b :: bs, u =>
    match unzipBuf ps maxRep maxVis b.length b u with
    | none => none
    | some u' => unzipBufs ps maxRep maxVis bs u'

/-- `unzip`, primitive.rs 2321-2416. -/
def unzip (ps : Parser) (maxRep maxVis : Nat) (bufs : List (List Nat)) : Option Unzipped :=
  (unzipBufs ps maxRep maxVis bufs Unzipped.empty).map fun u =>
    ⟨u.data, u.offsets ++ [u.data.length % 2 ^ 32], u.rep, u.defs,
      u.repdefStarts ++ [max u.rep.length u.defs.length], u.offsetStarts ++ [u.offsets.length],
      u.visibleCounts ++ [u.offsets.length]⟩

/-- A slice of levels, unless there are none, primitive.rs 2439-2450. -/
def sliceLevels (l : List Nat) (s e : Nat) : Option (List Nat) := if l = [] then some [] else if s ≤ e then sliceLen l s (e - s) else none

/-- The strings between offsets (`VariableWidthBlock`). -/
def between (data : List Nat) : List Nat → Option (List (List Nat))
  | a :: b :: rest =>
    match fetch data a b, between data (b :: rest) with
    | some v, some vs => some (v :: vs)
    | _, _ => none
  | _ => some []

/-- `VariableFullZipDecoder::drain` (primitive.rs 2419-2469) of rows `start` to `stop`, and its decode (2487-2506).  Both
kinds of levels are given to the unraveler, even if they are empty.  The byte positions of offsets are divided by 4. -/
def drainVariable (u : Unzipped) (start stop : Nat) : Option (Out (List Nat)) :=
  match u.offsetStarts[start]?, u.offsetStarts[stop]?, u.repdefStarts[start]?, u.repdefStarts[stop]? with
  | some os, some oe, some rs, some re =>
    if os ≤ oe + 1 then
      match sliceLen u.offsets os (oe + 1 - os), sliceLevels u.rep rs re, sliceLevels u.defs rs re with
      | some offs, some rep, some defs => (between u.data offs).map fun vs => ⟨some rep, some defs, vs⟩
      | _, _, _ => none
    else none
  | _, _, _, _ => none

/-- The batches of a read of strings; `at_` is `current_idx`. -/
def batchVariable (u : Unzipped) : List Nat → Nat → Option (List (Out (List Nat)))
  | [], _ => some []
  | n :: rest, at_ =>
    match drainVariable u at_ (at_ + n), batchVariable u rest (at_ + n) with
    | some o, some os => some (o :: os)
    | _, _ => none

/-- Read some ranges of rows of a page of strings, in batches of the given numbers of rows.  (There are no fixed size lists of
strings; `items_per_row` is 1.) -/
def readVariable (p : Page) (ranges : List (Nat × Nat)) (batches : List Nat) : Option (List (Out (List Nat))) :=
  let ps := Parser.new p.bitsRep p.bitsDef
  match p.index with
  | none => none
  | some index =>
    match fetchRep p 1 index ranges with
    | none => none
    | some bufs =>
      match unzip ps (maxRepOf p.layers) (maxVisibleZip p.layers) bufs with
      | none => none
      | some u => batchVariable u batches 0

end Verif.Zip
