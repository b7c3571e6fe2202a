import Verif.RowIds.Serde

/-!
# The layout of a file

Models how `FileWriter` lays out a file and how `FileReader` finds everything again
(`rust/lance-file/src/v2/writer.rs` 40-600, `rust/lance-file/src/v2/reader.rs` 310-700): buffers, padding, the file
descriptor, the column metadata, the two tables of offsets, and the footer.

A byte is a number; that it is below 256 plays no role.  Writing to the object appends to it, and `tell` is its length
(C93).  Protobuf messages are written by a `Codec`, whose decoder reads what its encoder wrote.
-/
namespace Verif.File
open Verif.RowIds.Serde (leBytes fromLe)

abbrev Bytes := List Nat

/-- How messages of one kind are turned into bytes and back (`prost`, a dependency). -/
structure Codec (M : Type) where
  enc : M → Bytes
  dec : Bytes → Option M

/-- writer.rs:40-42 `PAGE_BUFFER_ALIGNMENT`, `PAD_BUFFER`; lance-core utils/bit.rs:8-11 `pad_bytes`. -/
def pad (n : Nat) : Nat := (64 - (n &&& 63)) &&& 63

/-- lance-encoding version.rs: the format versions a file can have (`Stable` and `Next` are names of two of them). -/
inductive Ver
  | legacy
  | v20
  | v21
  deriving DecidableEq, Repr

/-- The description of the encoding of a page: an `ArrayEncoding` in 2.0 files and a `PageLayout` in 2.1 files.  Both are
stored as `Any`, which keeps the name of the type. -/
inductive PageEnc (A S : Type)
  | legacy (a : A)
  | structural (s : S)
  deriving DecidableEq, Repr

/-- lance-encoding encoder.rs `EncodedPage`. -/
structure EncPage (A S : Type) where
  data : List Bytes
  desc : PageEnc A S
  rows : Nat
  row : Nat
  col : Nat

/-- protos/file2.proto `ColumnMetadata.Page`. -/
structure Page (A S : Type) where
  offsets : List Nat
  sizes : List Nat
  enc : PageEnc A S
  length : Nat
  priority : Nat
  deriving DecidableEq, Repr

/-- protos/file2.proto `ColumnMetadata`. -/
structure ColMeta (A S C : Type) where
  pages : List (Page A S)
  offsets : List Nat
  sizes : List Nat
  enc : Option C
  deriving DecidableEq, Repr

/-- writer.rs:93-104 `FileWriter`: what has been written, the metadata of the columns, the global buffers (position and
length), and the number of rows. -/
structure Wr (A S C : Type) where
  out : Bytes
  cols : List (ColMeta A S C)
  globals : List (Nat × Nat)
  rows : Nat
  deriving DecidableEq, Repr

variable {A S C M : Type}

/-- writer.rs:118-165, 257-293: a writer for this number of columns. -/
def Wr.new (n : Nat) : Wr A S C := ⟨[], List.replicate n ⟨[], [], [], none⟩, [], 0⟩

/-- writer.rs:167-172 `do_write_buffer`. -/
def padded (b : Bytes) : Bytes := b ++ List.replicate (pad b.length) 72

/-- writer.rs:180-190: the positions and the bytes of the buffers of a page, from position `pos`. -/
def layBuffers (pos : Nat) : List Bytes → List Nat × Bytes
  | [] => ([], [])
  | b :: bs =>
    let r := layBuffers (pos + (padded b).length) bs
    (pos :: r.1, padded b ++ r.2)

/-- writer.rs:179-210 `write_page`; `none` is a panic (no such column). -/
def writePage (w : Wr A S C) (p : EncPage A S) : Option (Wr A S C) :=
  let r := layBuffers w.out.length p.data
  match w.cols[p.col]? with
  | none => none
  | some c => some { w with
      out := w.out ++ r.2
      cols := w.cols.set p.col { c with pages := c.pages ++ [⟨r.1, p.data.map List.length, p.desc, p.rows, p.row⟩] } }

/-- writer.rs:212-235 `write_pages`. -/
def writePages : List (EncPage A S) → Wr A S C → Option (Wr A S C)
  | [], w => some w
  | p :: ps, w => (writePage w p).bind (writePages ps)

/-- lance-encoding encoder.rs:307-337 `OutOfLineBuffers`: the positions that the encoders are told for buffers outside
of pages (blobs), when the file has `base` bytes. -/
def extPositions (base : Nat) : List Bytes → List Nat
  | [] => []
  | b :: bs => base :: extPositions (base + b.length + pad b.length) bs

/-- A call of the writer that goes through the encoders: `write_batch` with the number of rows, the buffers outside of
pages and the pages that the encoders made; or `add_global_buffer`. -/
inductive Op (A S : Type)
  | batch (rows : Nat) (ext : List Bytes) (pages : List (EncPage A S))
  | global (b : Bytes)

/-- writer.rs:352-394 `write_batch` (after the encoders), 465-472 `add_global_buffer`; `none` is an error or a panic. -/
def stepOp (o : Op A S) (w : Wr A S C) : Option (Wr A S C) :=
  match o with
  | .batch n ext pages =>
    if n = 0 then some w
    else if n ≤ 2 ^ 32 - 1 then
      if w.rows + n < 2 ^ 64 then
        writePages pages { w with out := w.out ++ (ext.map padded).flatten, rows := w.rows + n }
      else none
    else none
  | .global b => some { w with out := w.out ++ padded b, globals := w.globals ++ [(w.out.length, b.length)] }

def runOps : List (Op A S) → Wr A S C → Option (Wr A S C)
  | [], w => some w
  | o :: os, w => (stepOp o w).bind (runOps os)

/-- lance-encoding encoder.rs `EncodedColumn`. -/
structure FinCol (A S C : Type) where
  pages : List (EncPage A S)
  buffers : List Bytes
  enc : C

/-- What a field encoder finishes with: buffers outside of pages, and its columns. -/
structure FinGroup (A S C : Type) where
  ext : List Bytes
  cols : List (FinCol A S C)

/-- writer.rs:499-506: the positions that are recorded for the buffers of a column, from the position of the first. -/
def colPositions (pos : Nat) : List Bytes → List Nat
  | [] => []
  | b :: bs => pos :: colPositions (pos + b.length) bs

/-- writer.rs:493-515: the end of one column. -/
def finishCol (i : Nat) (f : FinCol A S C) (w : Wr A S C) : Option (Wr A S C) :=
  match writePages f.pages w with
  | none => none
  | some w =>
    match w.cols[i]? with
    | none => none
    | some c => some { w with
        out := w.out ++ (f.buffers.map padded).flatten
        cols := w.cols.set i { c with
          offsets := c.offsets ++ colPositions w.out.length f.buffers
          sizes := c.sizes ++ f.buffers.map List.length
          enc := some f.enc } }

def finishCols : Nat → List (FinCol A S C) → Wr A S C → Option (Wr A S C)
  | _, [], w => some w
  | i, f :: fs, w => (finishCol i f w).bind (finishCols (i + 1) fs)

/-- writer.rs:474-525 `finish_writers`.  The buffers outside of pages are not padded (480-482). -/
def finishGroups : Nat → List (FinGroup A S C) → Wr A S C → Option (Wr A S C)
  | i, [], w => if i = w.cols.length then some w else none
  | i, g :: gs, w =>
    (finishCols i g.cols { w with out := w.out ++ g.ext.flatten }).bind (finishGroups (i + g.cols.length) gs)

/-- writer.rs:396-417 `write_column_metadatas`: positions and lengths, and the bytes. -/
def layMetas (cm : Codec M) (pos : Nat) : List M → List (Nat × Nat) × Bytes
  | [] => ([], [])
  | m :: ms =>
    let r := layMetas cm (pos + (cm.enc m).length) ms
    ((pos, (cm.enc m).length) :: r.1, cm.enc m ++ r.2)

/-- writer.rs:578-590: a table of positions and lengths. -/
def table (l : List (Nat × Nat)) : Bytes := l.flatMap (fun e => leBytes 8 e.1 ++ leBytes 8 e.2)

/-- `MAGIC`, "LANC". -/
def magic : Bytes := [76, 65, 78, 67]

/-- writer.rs:527-536 `version_to_numbers`; `none` is a panic. -/
def Ver.numbers : Ver → Option (Nat × Nat)
  | .legacy => none
  | .v20 => some (0, 3)
  | .v21 => some (2, 1)

/-- writer.rs:592-601: the footer. -/
def footer (cms cmo gbo ng nc major minor : Nat) : Bytes :=
  leBytes 8 cms ++ leBytes 8 cmo ++ leBytes 8 gbo ++ leBytes 4 ng ++ leBytes 4 nc ++ leBytes 2 major ++ leBytes 2 minor ++
    magic

/-- writer.rs:434-448, 566-601: everything after the data: the descriptor, the column metadata, the tables, the footer.
`num_columns` is the number of columns that the writer was made for. -/
def close {D : Type} (cd : Codec D) (cm : Codec (ColMeta A S C)) (d : D) (nv : Nat × Nat) (w : Wr A S C) : Bytes :=
  let desc := cd.enc d
  let gbos := (w.out.length, desc.length) :: w.globals
  let o1 := w.out ++ desc
  let metas := layMetas cm o1.length w.cols
  let o2 := o1 ++ metas.2
  let o3 := o2 ++ table metas.1
  let o4 := o3 ++ table gbos
  o4 ++ footer o1.length o2.length o3.length gbos.length w.cols.length nv.1 nv.2

/-- What the encoders have left when the file is finished. -/
structure Fin (A S C : Type) where
  ext : List Bytes
  pages : List (EncPage A S)
  groups : List (FinGroup A S C)

/-- writer.rs:544-605 `finish`; `none` is a panic.  `sch` is the schema with the metadata. -/
def finish {T : Type} (cd : Codec (T × Nat)) (cm : Codec (ColMeta A S C)) (v : Ver) (sch : T) (f : Fin A S C)
    (w : Wr A S C) : Option Bytes :=
  (writePages f.pages { w with out := w.out ++ (f.ext.map padded).flatten }).bind (fun w =>
    (finishGroups 0 f.groups w).bind (fun w => v.numbers.map (fun nv => close cd cm (sch, w.rows) nv w)))

/-! ### Reading -/

inductive Fail
  | err
  | panic
  deriving DecidableEq, Repr

/-- A read of a range of the file. -/
def readRange (file : Bytes) (a b : Nat) : Except Fail Bytes :=
  if a ≤ b ∧ b ≤ file.length then .ok ((file.drop a).take (b - a)) else .error .err

/-- A slice of bytes in memory: panics if it is out of range. -/
def slice (data : Bytes) (a b : Nat) : Except Fail Bytes :=
  if a ≤ b ∧ b ≤ data.length then .ok ((data.drop a).take (b - a)) else .error .panic

/-- reader.rs:372-381 `read_tail`. -/
def readTail (block : Nat) (file : Bytes) : Except Fail Bytes :=
  readRange file (if file.length < block then 0 else file.length - block) file.length

/-- reader.rs:310-324 `Footer`. -/
structure Footer where
  cms : Nat
  cmo : Nat
  gbo : Nat
  ng : Nat
  nc : Nat
  major : Nat
  minor : Nat
  deriving DecidableEq, Repr

/-- An integer of `w` bytes at an offset. -/
def intAt (b : Bytes) (o w : Nat) : Nat := fromLe ((b.drop o).take w)

/-- reader.rs:385-434 `decode_footer`. -/
def decodeFooter (b : Bytes) : Except Fail Footer :=
  if b.length < 40 then .error .err
  else
    let f := b.drop (b.length - 40)
    let major := intAt f 32 2
    let minor := intAt f 34 2
    if major = 0 ∧ minor = 2 then .error .err
    else if b.drop (b.length - 4) ≠ magic then .error .err
    else .ok ⟨intAt f 0 8, intAt f 8 8, intAt f 16 8, intAt f 24 4, intAt f 28 4, major, minor⟩

/-- lance-encoding version.rs:39-52 `try_from_major_minor`. -/
def verOf (major minor : Nat) : Except Fail Ver :=
  if major = 0 ∧ minor ≤ 2 then .ok .legacy
  else if major = 0 ∧ minor = 3 then .ok .v20
  else if major = 2 ∧ minor = 0 then .ok .v20
  else if major = 2 ∧ minor = 1 then .ok .v21
  else .error .err

/-- reader.rs:460-481 `optimistic_tail_read`: the file from `start` on, of which `data` is the end.  `file_len - start_pos`
may underflow. -/
def tailRead (data : Bytes) (start : Nat) (file : Bytes) : Except Fail Bytes :=
  if start ≤ file.length then
    let need := file.length - start
    if need ≤ data.length then .ok (data.drop (data.length - need))
    else (readRange file (file.length - need) (file.length - need + (need - data.length))).map (· ++ data)
  else .error .panic

/-- reader.rs:483-505 `do_decode_gbo_table`: it fails when the bytes run out; the assertion is a panic. -/
def gboTable (v : Ver) : Nat → Bytes → Except Fail (List (Nat × Nat))
  | 0, _ => .ok []
  | n + 1, b =>
    if b.length < 8 then .error .err
    else if v = .v21 ∧ intAt b 0 8 % 64 ≠ 0 then .error .panic
    else if b.length < 16 then .error .err
    else (gboTable v n (b.drop 16)).map ((intAt b 0 8, intAt b 8 8) :: ·)

/-- reader.rs:437-458 `read_all_column_metadata`.  `col_idx * 16` is computed as a `u32`. -/
def colMetas (cm : Codec M) (b : Bytes) (f : Footer) : Except Fail (List M) :=
  if 16 * f.nc ≤ b.length then
    let cmo := b.drop (b.length - 16 * f.nc)
    (List.range f.nc).mapM (fun i =>
      if 2 ^ 32 ≤ i * 16 then .error .panic
      else if intAt cmo (i * 16) 8 < f.cms then .error .panic
      else
        let p := intAt cmo (i * 16) 8 - f.cms
        match slice b p (p + intAt cmo (i * 16 + 8) 8) with
        | .error e => .error e
        | .ok m =>
          match cm.dec m with
          | none => .error .err
          | some m => .ok m)
  else .error .panic

/-- lance-encoding decoder.rs `PageInfo`. -/
structure PageInfo (A S : Type) where
  bufs : List (Nat × Nat)
  enc : PageEnc A S
  rows : Nat
  priority : Nat
  deriving DecidableEq, Repr

/-- lance-encoding decoder.rs `ColumnInfo`. -/
structure ColInfo (A S C : Type) where
  index : Nat
  pages : List (PageInfo A S)
  bufs : List (Nat × Nat)
  enc : C
  deriving DecidableEq, Repr

/-- reader.rs:629-664: a page as described in the metadata.  A description of the wrong kind, or in a 2.1 file a buffer
that is not aligned, is a panic. -/
def pageInfo (v : Ver) (p : Page A S) : Except Fail (PageInfo A S) :=
  match v, p.enc with
  | .v20, .structural _ => .error .panic
  | .legacy, .legacy _ => .error .panic
  | .v21, .legacy _ => .error .panic
  | _, _ =>
    if v = .v21 ∧ (p.offsets.zip p.sizes).any (fun b => b.1 % 64 != 0) then .error .panic
    else .ok ⟨p.offsets.zip p.sizes, p.enc, p.length, p.priority⟩

/-- reader.rs:619-682 `meta_to_col_infos`. -/
def colInfo (v : Ver) (i : Nat) (c : ColMeta A S C) : Except Fail (ColInfo A S C) :=
  match c.pages.mapM (pageInfo v) with
  | .error e => .error e
  | .ok pages =>
    match c.enc with
    | none => .error .panic
    | some e => .ok ⟨i, pages, c.offsets.zip c.sizes, e⟩

def colInfos (v : Ver) : Nat → List (ColMeta A S C) → Except Fail (List (ColInfo A S C))
  | _, [] => .ok []
  | i, c :: cs =>
    match colInfo v i c with
    | .error e => .error e
    | .ok x => (colInfos v (i + 1) cs).map (x :: ·)

/-- reader.rs `CachedFileMetadata`. -/
structure Meta (T A S C : Type) where
  schema : T
  rows : Nat
  metas : List (ColMeta A S C)
  infos : List (ColInfo A S C)
  dataBytes : Nat
  metaBytes : Nat
  globalBytes : Nat
  footerBytes : Nat
  bufs : List (Nat × Nat)
  major : Nat
  minor : Nat
  deriving DecidableEq, Repr

/-- reader.rs:547-605 `read_all_metadata`, when blocks of `block` bytes are read.  (`num_rows` and the schema are the two
parts of the file descriptor.) -/
def readAll {T : Type} (cd : Codec (T × Nat)) (cm : Codec (ColMeta A S C)) (block : Nat) (file : Bytes) :
    Except Fail (Meta T A S C) := do
  let tail ← readTail block file
  let f ← decodeFooter tail
  let v ← verOf f.major f.minor
  let gboBytes ← tailRead tail f.gbo file
  let gbos ← gboTable v f.ng gboBytes
  match gbos with
  | [] => .error .err
  | (start, size) :: _ =>
    if file.length < start then .error .panic else
    let all ← tailRead tail start file
    let sb ← slice all 0 size
    match cd.dec sb with
    | none => .error .err
    | some (sch, rows) =>
      if f.cms < start ∨ f.gbo < start then .error .panic else
      let mb ← slice all (f.cms - start) (f.gbo - start)
      let metas ← colMetas cm mb f
      let g := (gbos.map (·.2)).sum
      if f.cms < g ∨ f.gbo < f.cms then .error .panic else
      let infos ← colInfos v 0 metas
      return ⟨sch, rows, metas, infos, f.cms - g, f.gbo - f.cms, g, file.length - start, gbos, f.major, f.minor⟩

end Verif.File
