/-!
# FSST, the string compression

`rust/lance-encoding/src/compression_algo/fsst/src/fsst.rs` 1-1280 ("fsst.rs" below) and the buffers that
`rust/lance-encoding/src/encodings/physical/fsst.rs` ("physical/fsst.rs") hands to it.

Simplifications of the whole area:
* Bytes, words and codes are `Nat`.  A word is read and written little endian (the code uses the byte order of the machine).
* `|` of values with disjoint bits is `+`, shifts are products and quotients by powers of two.
* Arrays are functions from `Nat`.
* An output buffer of length `cap` is the list of the bytes written so far, whose length is the position `out_curr`.  A write beyond
  `cap` is `.panic`, also where the code writes through a raw pointer without a check.
* The sample, the frequencies counted in it and the order of the heap are not modelled: the table is built from ANY terminator, ANY gains
  and ANY sequence of the candidates the code allows.
* An `i32` offset beyond 2^31 is `.panic`; the code wraps.
-/
namespace Verif.Fsst

/-- What a call may end with instead of a result: an `Err`, or a panic, a loop without end, or a write out of bounds. -/
inductive Fail where
  | refused
  | panic
deriving DecidableEq, Repr

/-- A result, an `Err`, or a crash. -/
abbrev Res := Except Fail

/-- The bytes of a word from the lowest to the highest. -/
def leWord : List Nat → Nat
  | [] => 0
  | b :: bs => b + 256 * leWord bs

/-- The `n` lowest bytes of a word, from the lowest: `to_ne_bytes` on a little endian machine. -/
def leBytes : Nat → Nat → List Nat
  | 0, _ => []
  | n + 1, w => w % 256 :: leBytes n (w / 256)

/-- `Symbol`: `val` is the bytes, `icl` is ignored bits (16), code (12), length (4); 2^32 marks a free slot (fsst.rs 62-72, 28). -/
structure Symbol where
  val : Nat
  icl : Nat
deriving DecidableEq, Repr

/-- `FSST_ICL_FREE` (fsst.rs 28). -/
def iclFree : Nat := 2 ^ 32

/-- `Symbol::new` (fsst.rs 111-116). -/
def Symbol.empty : Symbol := ⟨0, iclFree⟩

/-- The packed `icl` of a code and a length (fsst.rs 126-130). -/
def packIcl (code len : Nat) : Nat := len * 2 ^ 28 + code * 2 ^ 16 + (8 - len) * 8

/-- `Symbol::from_char` (fsst.rs 118-124). -/
def Symbol.fromChar (c code : Nat) : Symbol := ⟨c, 1 * 2 ^ 28 + code * 2 ^ 16 + 56⟩

/-- `set_code_len` (fsst.rs 126-130). -/
def Symbol.setCodeLen (s : Symbol) (code len : Nat) : Symbol := { s with icl := packIcl code len }

/-- `symbol_len` (fsst.rs 133-135). -/
def Symbol.len (s : Symbol) : Nat := s.icl / 2 ^ 28

/-- `code` (fsst.rs 138-140). -/
def Symbol.code (s : Symbol) : Nat := s.icl / 2 ^ 16 % 512

/-- `ignored_bits` (fsst.rs 145-147). -/
def Symbol.ignored (s : Symbol) : Nat := s.icl % 2 ^ 16

/-- `first`; its assertion is made by the callers (fsst.rs 150-153). -/
def Symbol.first (s : Symbol) : Nat := s.val % 256

/-- `first2`; its assertion is made by the callers (fsst.rs 156-159). -/
def Symbol.first2 (s : Symbol) : Nat := s.val % 65536

/-- `fsst_hash` (fsst.rs 37-42): `>>` binds tighter than `^`. -/
def fsstHash (w : Nat) : Nat := (w * 2971215073 % 2 ^ 64) ^^^ (w * 2971215073 % 2 ^ 64 / 2 ^ 15)

/-- The slot of the hash table for a word: its first three bytes, hashed (fsst.rs 162-165, 334, 749-750). -/
def hashSlot (w : Nat) : Nat := fsstHash (w % 2 ^ 24) % 1024

/-- `Symbol::concat`: at most eight bytes, the rest shifted out (fsst.rs 170-180). -/
def Symbol.concat (l r : Symbol) : Symbol :=
  ⟨(r.val * 256 ^ l.len + l.val) % 2 ^ 64, packIcl 511 (min 8 (l.len + r.len))⟩

/-- Overwrites one place of an array. -/
def upd {α : Type} (f : Nat → α) (i : Nat) (a : α) : Nat → α := fun j => if j = i then a else f j

/-- `SymbolTable` (fsst.rs 234-245). -/
structure Table where
  shortCodes : Nat → Nat
  byteCodes : Nat → Nat
  symbols : Nat → Symbol
  hashTab : Nat → Symbol
  n : Nat
  terminator : Nat
  suffixLim : Nat
  lenHisto : Nat → Nat

/-- `SymbolTable::clear`: keeps the terminator and the suffix limit (fsst.rs 309-331). -/
def Table.clear (st : Table) : Table :=
  { st with
    symbols := fun i => if i < 256 then Symbol.fromChar i i else Symbol.fromChar 0 511
    byteCodes := fun i => i
    shortCodes := fun i => i % 256
    hashTab := fun _ => Symbol.empty
    lenHisto := fun _ => 0
    n := 0 }

/-- `SymbolTable::new` (fsst.rs 278-307). -/
def Table.init : Table :=
  Table.clear ⟨fun _ => 511, fun _ => 0, fun _ => Symbol.empty, fun _ => Symbol.empty, 0, 256, 512, fun _ => 0⟩

/-- `hash_insert` (fsst.rs 333-342): `none` is the collision. -/
def Table.hashInsert (st : Table) (s : Symbol) : Option Table :=
  if (st.hashTab (hashSlot s.val)).icl < iclFree then none
  else some { st with hashTab := upd st.hashTab (hashSlot s.val) ⟨s.val % 2 ^ (64 - s.ignored), s.icl⟩ }

/-- `add` (fsst.rs 344-359).  A symbol whose slot is taken leaves the table as it is. -/
def Table.add (st : Table) (s : Symbol) : Res Table :=
  if 512 ≤ 256 + st.n then .error .panic
  else
    let len := s.len
    let code := 256 + st.n
    let s := s.setCodeLen code len
    let fin (t : Table) : Table :=
      { t with symbols := upd t.symbols code s, n := t.n + 1, lenHisto := upd t.lenHisto (len - 1) (t.lenHisto (len - 1) + 1) }
    if len = 0 ∨ 9 < len then .error .panic
    else if len = 1 then .ok (fin { st with byteCodes := upd st.byteCodes s.first code })
    else if len = 2 then .ok (fin { st with shortCodes := upd st.shortCodes s.first2 code })
    else match st.hashInsert s with
      | none => .ok st
      | some t => .ok (fin t)

/-- One candidate of `make_table`: a symbol of the table, or two of them joined.  `none`: the code does not consider it
(fsst.rs 660-695). -/
def Table.candidate (st : Table) : Nat × Option Nat → Option Symbol
  | (p, none) => if p < 256 + st.n then some (st.symbols p) else none
  | (p, some q) =>
    let s1 := st.symbols p
    let s2 := st.symbols q
    if p < 256 + st.n ∧ q < 256 + st.n ∧ s1.first ≠ st.terminator % 256 ∧ s1.len ≠ 8 ∧ s2.first ≠ st.terminator % 256
    then some (s1.concat s2) else none

/-- The loop that fills the table from the heap (fsst.rs 702-706). -/
def addAll (st : Table) : List Symbol → Res Table
  | [] => .ok st
  | s :: rest => if st.n < 255 then do
      let t ← st.add s
      addAll t rest
    else .ok st

/-- `make_table` (fsst.rs 639-707).  `picks` is the order in which the heap gives the candidates. -/
def makeTable (st : Table) (picks : List (Nat × Option Nat)) : Res Table :=
  addAll st.clear (picks.filterMap st.candidate)

/-- The rounds of `build_symbol_table`: the gain that `compress_count` finds for the table so far, then the next table
(fsst.rs 709-718). -/
def rounds (st best : Table) (bestGain : Int) : List (Int × List (Nat × Option Nat)) → Res Table
  | [] => .ok best
  | (g, picks) :: rest => do
    let st' ← makeTable st picks
    if bestGain ≤ g then rounds st' st g rest else rounds st' best bestGain rest

/-- The loop state of `finalize` (fsst.rs 418-428). -/
structure Fin where
  newCode : Nat → Nat
  rsum : Nat → Nat
  suffixLim : Nat
  j : Nat
  symbols : Nat → Symbol

/-- `rsum` before the loop: the first code of each length, two to eight and then one (fsst.rs 419-425). -/
def rsum0 (histo : Nat → Nat) (n : Nat) : Nat → Nat
  | 0 => n - histo 0
  | 1 => 0
  | i + 1 => rsum0 histo n i + histo i

/-- Does a longer symbol begin with the two bytes of symbol `i`? (fsst.rs 433-441) -/
def Table.hasSuffix (st : Table) (i : Nat) : Bool :=
  (List.range st.n).any fun k =>
    decide (k ≠ i) && decide (2 < (st.symbols (256 + k)).len) &&
      decide ((st.symbols (256 + i)).first2 = (st.symbols (256 + k)).first2)

/-- One turn of the loop of `finalize` (fsst.rs 429-455).  The `u8` counters must not wrap. -/
def finStep (st : Table) (f : Fin) (i : Nat) : Res Fin :=
  let s1 := f.symbols (256 + i)
  let len := s1.len
  if len = 0 ∨ 8 < len then .error .panic
  else if len = 2 then
    if st.hasSuffix i then
      .ok { f with newCode := upd f.newCode i f.suffixLim, suffixLim := f.suffixLim + 1
                   symbols := upd f.symbols f.suffixLim (s1.setCodeLen f.suffixLim len) }
    else if f.j = 0 then .error .panic
    else .ok { f with newCode := upd f.newCode i (f.j - 1), j := f.j - 1
                      symbols := upd f.symbols (f.j - 1) (s1.setCodeLen (f.j - 1) len) }
  else if 255 ≤ f.rsum (len - 1) then .error .panic
  else
    let c := f.rsum (len - 1)
    .ok { f with newCode := upd f.newCode i c, rsum := upd f.rsum (len - 1) (c + 1)
                 symbols := upd f.symbols c (s1.setCodeLen c len) }

/-- The loop of `finalize` over the given positions. -/
def finLoop (st : Table) (f : Fin) : List Nat → Res Fin
  | [] => .ok f
  | i :: is => do
    let f' ← finStep st f i
    finLoop st f' is

/-- `finalize` (fsst.rs 416-482). -/
def Table.finalize (st : Table) : Res Table :=
  if 256 ≤ st.n then .error .panic
  else do
    let r := rsum0 st.lenHisto st.n
    let f ← finLoop st ⟨fun _ => 0, r, 0, r 2, st.symbols⟩ (List.range st.n)
    let byteCodes : Nat → Nat := fun i =>
      if 256 ≤ st.byteCodes i % 512 then f.newCode (st.byteCodes i % 256) + 1 * 4096 else 511 + 1 * 4096
    let shortCodes : Nat → Nat := fun i =>
      if 256 < st.shortCodes i % 512 then f.newCode (st.shortCodes i % 256) + 2 * 4096 else byteCodes (i % 256)
    let hashTab : Nat → Symbol := fun i =>
      if (st.hashTab i).icl < iclFree then f.symbols (f.newCode ((st.hashTab i).code % 256)) else st.hashTab i
    .ok { st with symbols := f.symbols, byteCodes := byteCodes, shortCodes := shortCodes, hashTab := hashTab
                  suffixLim := f.suffixLim }

/-- `FSST_SAMPLEMAXSZ` (fsst.rs 19). -/
def sampleMax : Nat := 32768

/-- What the random sample decides: the terminator, and for every round the gain and the order of the candidates. -/
structure Oracle where
  terminator : Nat
  rounds : List (Int × List (Nat × Option Nat))

/-- `build_symbol_table` (fsst.rs 552-731). -/
def build (o : Oracle) : Res Table := do
  let best ← rounds { Table.init with terminator := o.terminator } Table.init (-(sampleMax : Int)) o.rounds
  let t ← best.finalize
  if t.n = 0 then .error .refused else .ok t

/-- The word at a position of the 520 byte buffer (fsst.rs 58-60, 747). -/
def wordAt (buf : List Nat) (p : Nat) : Nat := leWord ((buf.drop p).take 8)

/-- The packed code, code and length, that the next word is given (fsst.rs 748-758). -/
def Table.lookup (st : Table) (w : Nat) : Nat :=
  let s := st.hashTab (hashSlot w)
  if s.icl < iclFree ∧ s.val = w % 2 ^ (64 - s.icl % 65536) then s.icl / 65536 % 65536 else st.shortCodes (w % 65536)

/-- The closure `compress` of `compress_bulk` (fsst.rs 744-763): both output bytes are written at every turn.  `fuel` bounds the turns;
a turn that does not advance is a loop without end. -/
def encLoop (st : Table) (buf : List Nat) (inEnd cap : Nat) : Nat → Nat → List Nat → Res (List Nat)
  | 0, p, out => if p < inEnd then .error .panic else .ok out
  | fuel + 1, p, out =>
    if p < inEnd then
      let w := wordAt buf p
      let code := st.lookup w
      if out.length + 1 < cap then
        encLoop st buf inEnd cap fuel (p + code / 4096)
          (out ++ (if code / 256 % 2 = 1 then [code % 256, w % 256] else [code % 256]))
      else .error .panic
    else .ok out

/-- One string in chunks of 511 bytes.  The buffer keeps what the chunk before left behind the sentinel (fsst.rs 767-779). -/
def encString (st : Table) (cap : Nat) : Nat → List Nat → List Nat → List Nat → Res (List Nat)
  | 0, _, s, out => if s = [] then .ok out else .error .panic
  | fuel + 1, buf, s, out =>
    if s = [] then .ok out
    else do
      let chunk := s.take 511
      let buf' := chunk ++ (st.terminator % 256) :: buf.drop (chunk.length + 1)
      let out' ← encLoop st buf' chunk.length cap chunk.length 0 out
      encString st cap fuel buf' (s.drop 511) out'

/-- A slice of a buffer; a range out of bounds is a panic. -/
def slice (buf : List Nat) (a b : Nat) : Res (List Nat) :=
  if a ≤ b ∧ b ≤ buf.length then .ok ((buf.drop a).take (b - a)) else .error .panic

/-- A position as `i32`. -/
def asI32 (n : Nat) : Res Nat := if n < 2 ^ 31 then .ok n else .error .panic

/-- `compress_bulk` over the ranges of `offsets` (fsst.rs 765-787): the bytes, and the offsets after the first. -/
def compressBulk (st : Table) (buf : List Nat) (cap : Nat) : List Nat → List Nat → Res (List Nat × List Nat)
  | a :: b :: rest, out => do
    let s ← slice buf a (max a b)
    let out' ← encString st cap s.length (List.replicate 520 0) s out
    let o ← asI32 out'.length
    let (fin, offs) ← compressBulk st buf cap (b :: rest) out'
    .ok (fin, o :: offs)
  | _, out => .ok (out, [])

/-- `export` into a zeroed buffer of 2312 bytes (fsst.rs 1052-1079, 46). -/
def Table.export (st : Table) (switch : Bool) : Res (List Nat) :=
  let info := 0x46535354 * 2 ^ 32 + (if switch then 1 else 0) * 2 ^ 24 + st.suffixLim % 256 * 2 ^ 16 +
    st.terminator % 256 * 2 ^ 8 + st.n % 256
  let body := leBytes 8 info ++ (List.range st.n).flatMap (fun i => leBytes 8 (st.symbols i).val) ++
    (List.range st.n).map (fun i => (st.symbols i).len % 256)
  if body.length ≤ 2312 then .ok (body ++ List.replicate (2312 - body.length) 0) else .error .panic

/-- What `compress` leaves: the symbol table, the bytes and the offsets. -/
structure Compressed where
  table : List Nat
  bytes : List Nat
  offsets : List Nat
deriving DecidableEq, Repr

/-- `FSST_LEAST_INPUT_SIZE` (fsst.rs 22). -/
def leastInput : Nat := 4 * 1024 * 1024

/-- `compress` (fsst.rs 994-1119, 1238-1257) with the output buffers of physical/fsst.rs 166-176 and 225-236: twice the input. -/
def compress (o : Oracle) (buf offsets : List Nat) : Res Compressed :=
  if buf.length < leastInput then do
    let t ← Table.init.export false
    .ok ⟨t, buf, offsets⟩
  else do
    let st ← build o
    let t ← st.export true
    let (bytes, offs) ← compressBulk st buf (2 * buf.length) offsets []
    .ok ⟨t, bytes, 0 :: offs⟩

/-- `FsstDecoder` (fsst.rs 1122-1135). -/
structure Decoder where
  lens : Nat → Nat
  symbols : Nat → Nat
  on : Bool

/-- `FSST_CORRUPT` (fsst.rs 1121). -/
def corrupt : Nat := 32774747032022883

/-- `FsstDecoder::init` (fsst.rs 1137-1197).  `inLen`, `inOffs`, `cap` and `capOffs` are the lengths of the four buffers. -/
def decoderInit (table : List Nat) (inLen inOffs cap capOffs : Nat) : Res Decoder :=
  if table.length < 8 then .error .panic
  else
    let info := leWord (table.take 8)
    if (info / 2 ^ 32) &&& 0x46535354 ≠ 0x46535354 then .error .refused
    else if table.length ≠ 2312 then .error .refused
    else
      let on := decide (info / 2 ^ 24 % 2 = 1)
      if on = true ∧ cap < inLen * 3 then .error .refused
      else if on = false ∧ cap < inLen then .error .refused
      else if capOffs < inOffs then .error .refused
      else
        let n := info % 256
        .ok ⟨fun i => if i < n then table.getD (8 + 8 * n + i) 0 else 0,
             fun i => if i < n then leWord ((table.drop (8 + 8 * i)).take 8) else corrupt, on⟩

/-- A checked read of a compressed byte. -/
def byteAt (bytes : List Nat) (p : Nat) : Res Nat :=
  match bytes[p]? with
  | some b => .ok b
  | none => .error .panic

/-- Eight bytes are written through a raw pointer, the position advances by the length of the symbol (fsst.rs 814-821). -/
def putSym (d : Decoder) (cap code : Nat) (out : List Nat) : Res (List Nat) :=
  if out.length + 8 ≤ cap then .ok (out ++ (leBytes 8 (d.symbols code)).take (d.lens code)) else .error .panic

/-- A checked write of one byte. -/
def putByte (cap b : Nat) (out : List Nat) : Res (List Nat) :=
  if out.length < cap then .ok (out ++ [b]) else .error .panic

/-- The mask that finds escapes, for one byte of the block: the sum has no carry into the next byte (fsst.rs 810-811). -/
def escByte (b : Nat) : Nat := (b &&& 0x80) &&& (((255 - b) &&& 0x7F) + 0x7F ^^^ 0x80)

/-- `trailing_zeros() >> 3`: the first byte of the block whose mask is not zero; the length of the block if there is none. -/
def firstEsc : List Nat → Nat
  | [] => 0
  | b :: bs => if escByte b = 0 then firstEsc bs + 1 else 0

/-- `k` codes in a row, from position `p`. -/
def putSyms (d : Decoder) (bytes : List Nat) (cap : Nat) : Nat → Nat → List Nat → Res (List Nat)
  | 0, _, out => .ok out
  | k + 1, p, out => do
    let c ← byteAt bytes p
    let out' ← putSym d cap c out
    putSyms d bytes cap k (p + 1) out'

/-- The last up to three bytes of a string (fsst.rs 938-976). -/
def decTail (d : Decoder) (bytes : List Nat) (inEnd cap p : Nat) (out : List Nat) : Res (List Nat) := do
  let (p, out) ← (if p + 2 ≤ inEnd then do
      let x ← byteAt bytes (p + 1)
      let _ ← putByte cap x out
      let c ← byteAt bytes p
      if c ≠ 255 then do
        let out1 ← putSym d cap c out
        let c1 ← byteAt bytes (p + 1)
        if c1 ≠ 255 then do
          let out2 ← putSym d cap c1 out1
          .ok (p + 2, out2)
        else do
          let y ← byteAt bytes (p + 2)
          let out2 ← putByte cap y out1
          .ok (p + 3, out2)
      else .ok (p + 2, out ++ [x])
    else .ok (p, out) : Res (Nat × List Nat))
  if p < inEnd then do
    let c ← byteAt bytes p
    putSym d cap c out
  else .ok out

/-- The closure `decompress` of `decompress_bulk` (fsst.rs 801-977): blocks of four bytes up to the first escape, then the tail.
`fuel` bounds the turns; every turn advances. -/
def decLoop (d : Decoder) (bytes : List Nat) (inEnd cap : Nat) : Nat → Nat → List Nat → Res (List Nat)
  | 0, _, _ => .error .panic
  | fuel + 1, p, out =>
    if p + 4 ≤ inEnd then
      if bytes.length < p + 4 then .error .panic
      else do
        let k := firstEsc ((bytes.drop p).take 4)
        let out ← putSyms d bytes cap k p out
        if k < 4 then do
          let x ← byteAt bytes (p + k + 1)
          let out ← putByte cap x out
          decLoop d bytes inEnd cap fuel (p + k + 2) out
        else decLoop d bytes inEnd cap fuel (p + 4) out
    else decTail d bytes inEnd cap p out

/-- `decompress_bulk` over the ranges of `offsets` (fsst.rs 979-991). -/
def decompressBulk (d : Decoder) (bytes : List Nat) (cap : Nat) : List Nat → List Nat → Res (List Nat × List Nat)
  | a :: b :: rest, out => do
    let out' ← decLoop d bytes b cap (b - a + 1) a out
    let o ← asI32 out'.length
    let (fin, offs) ← decompressBulk d bytes cap (b :: rest) out'
    .ok (fin, o :: offs)
  | _, out => .ok (out, [])

/-- `decompress` (fsst.rs 1199-1225, 1263-1280): the bytes and the offsets.  `cap` and `capOffs` are the lengths of the output buffers. -/
def decompress (table bytes offsets : List Nat) (cap capOffs : Nat) : Res (List Nat × List Nat) := do
  let d ← decoderInit table bytes.length offsets.length cap capOffs
  if d.on = false then .ok (bytes, offsets)
  else do
    let (out, offs) ← decompressBulk d bytes cap offsets []
    .ok (out, 0 :: offs)

end Verif.Fsst
