import Verif.File.LemmasFile

/-!
# Batches encoded in memory

Models `encode_batch` (`rust/lance-encoding/src/encoder.rs` 1385-1505) and how such a batch is turned into bytes and back
(`rust/lance-file/src/v2/writer.rs` 612-722, `rust/lance-file/src/v2/reader.rs` 1207-1308).
-/
namespace Verif.File

variable {A S C T : Type}

/-- encoder.rs:1385-1391 `EncodedBatch` (without `top_level_columns`). -/
structure EncBatch (T A S C : Type) where
  data : Bytes
  table : List (ColInfo A S C)
  sch : T
  rows : Nat
  deriving DecidableEq, Repr

/-- Buffers are appended without padding: encoder.rs:1396-1401, 1469-1474. -/
def layFlat (pos : Nat) : List Bytes → List (Nat × Nat)
  | [] => []
  | b :: bs => (pos, b.length) :: layFlat (pos + b.length) bs

/-- The state of `encode_batch`: the data, the pages that no column has taken yet (with their columns), the columns. -/
structure Mem (A S C : Type) where
  data : Bytes
  pend : List (Nat × PageInfo A S)
  table : List (ColInfo A S C)

/-- encoder.rs:1393-1409 `write_page_to_data_buffer`, 1451-1457. -/
def addPage (s : Mem A S C) (p : EncPage A S) : Mem A S C :=
  { s with
    data := s.data ++ p.data.flatten
    pend := s.pend ++ [(p.col, ⟨layFlat s.data.length p.data, p.desc, p.rows, p.row⟩)] }

/-- encoder.rs:1465-1490: one column of a field.  Its index is the number of columns before it. -/
def addCol (s : Mem A S C) (f : FinCol A S C) : Mem A S C :=
  let i := s.table.length
  let bufs := layFlat s.data.length f.buffers
  let s := f.pages.foldl addPage { s with data := s.data ++ f.buffers.flatten }
  { s with
    pend := s.pend.filter (fun p => p.1 != i)
    table := s.table ++ [⟨i, (s.pend.filter (fun p => p.1 == i)).map (·.2), bufs, f.enc⟩] }

/-- What the encoder of one field makes: buffers outside of pages and pages of `maybe_encode` and `flush`, then buffers
outside of pages and columns of `finish`. -/
structure MemGroup (A S C : Type) where
  ext : List Bytes
  pages : List (EncPage A S)
  ext2 : List Bytes
  cols : List (FinCol A S C)

/-- encoder.rs:1436-1492: one field.  The map of pages is a new one for each field; no buffer is padded (1447-1449,
1461-1463). -/
def addGroup (s : Mem A S C) (g : MemGroup A S C) : Mem A S C :=
  let s := g.pages.foldl addPage { s with data := s.data ++ g.ext.flatten, pend := [] }
  g.cols.foldl addCol { s with data := s.data ++ g.ext2.flatten }

/-- encoder.rs:1415-1505 `encode_batch`, after the encoders. -/
def encodeBatch (sch : T) (rows : Nat) (groups : List (MemGroup A S C)) : EncBatch T A S C :=
  let s := groups.foldl addGroup ⟨[], [], []⟩
  ⟨s.data, s.table, sch, rows⟩

/-- writer.rs:636-676: the metadata of a column, from the page table. -/
def ColInfo.toMeta (c : ColInfo A S C) : ColMeta A S C :=
  ⟨c.pages.map (fun p => ⟨p.bufs.map (·.1), p.bufs.map (·.2), p.enc, p.rows, p.priority⟩), c.bufs.map (·.1),
    c.bufs.map (·.2), some c.enc⟩

/-- writer.rs:612-711 `concat_lance_footer`: the version is always the default one. -/
def concatFooter (cd : Codec (T × Nat)) (cm : Codec (ColMeta A S C)) (withSchema : Bool) (b : EncBatch T A S C) : Bytes :=
  let desc := if withSchema then cd.enc (b.sch, b.rows) else []
  let gbos := if withSchema then [(b.data.length, desc.length)] else []
  let o1 := b.data ++ desc
  let metas := layMetas cm o1.length (b.table.map ColInfo.toMeta)
  let o2 := o1 ++ metas.2
  let o3 := o2 ++ table metas.1
  let o4 := o3 ++ table gbos
  o4 ++ footer o1.length o2.length o3.length gbos.length b.table.length 2 0

/-- reader.rs:1247-1251, 1297-1301: the rows of the pages of the first column. -/
def firstRows (t : List (ColInfo A S C)) : Nat :=
  match t with
  | [] => 0
  | c :: _ => (c.pages.map (·.rows)).sum

/-- reader.rs:1221-1257 `try_from_mini_lance`. -/
def fromMini (cm : Codec (ColMeta A S C)) (sch : T) (bytes : Bytes) : Except Fail (EncBatch T A S C) :=
  match decodeFooter bytes with
  | .error e => .error e
  | .ok f =>
  match slice bytes f.cms f.gbo with
  | .error e => .error e
  | .ok mb =>
  match colMetas cm mb f with
  | .error e => .error e
  | .ok metas =>
  match verOf f.major f.minor with
  | .error e => .error e
  | .ok v =>
  match colInfos v 0 metas with
  | .error e => .error e
  | .ok t => .ok ⟨bytes, t, sch, firstRows t⟩

/-- reader.rs:1259-1307 `try_from_self_described_lance`. -/
def fromSelf (cd : Codec (T × Nat)) (cm : Codec (ColMeta A S C)) (bytes : Bytes) : Except Fail (EncBatch T A S C) :=
  match decodeFooter bytes with
  | .error e => .error e
  | .ok f =>
  match verOf f.major f.minor with
  | .error e => .error e
  | .ok v =>
  match slice bytes f.gbo bytes.length with
  | .error e => .error e
  | .ok gb =>
  match gboTable v f.ng gb with
  | .error e => .error e
  | .ok [] => .error .err
  | .ok ((start, size) :: _) =>
  match slice bytes start (start + size) with
  | .error e => .error e
  | .ok sb =>
  match cd.dec sb with
  | none => .error .err
  | some (sch, _) =>
  match slice bytes f.cms f.gbo with
  | .error e => .error e
  | .ok mb =>
  match colMetas cm mb f with
  | .error e => .error e
  | .ok metas =>
  match colInfos v 0 metas with
  | .error e => .error e
  | .ok t => .ok ⟨bytes, t, sch, firstRows t⟩

end Verif.File
