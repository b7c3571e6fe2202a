import Verif.Bits.Model
import Verif.ListCol.Model

/-!
# Blob columns and blob files

Models `rust/lance-encoding/src/encodings/logical/blob.rs` (large binary values stored out of line), the part of
`rust/lance-encoding/src/encoder.rs` (307-337) and `rust/lance-file/src/v2/writer.rs` (166-171, 309-390) that lays the values
out in the file, `rust/lance/src/dataset/blob.rs` (36-228, a value opened as a file) and the Python class on top of it
(`python/python/lance/blob.py` 52-102, `python/src/dataset/blob.rs` 29-86).

Bytes are natural numbers (nothing looks at their value).  Positions in a file are unbounded numbers where a file is written
and read as a column; the arithmetic of an open blob file is that of `u64`, wrapping as in a release build.
-/
namespace Verif.Blob
open Verif.ListCol (slice)

abbrev Bytes := List Nat

/-! ## Writing -/

/-- datatypes.rs:37-41 `BLOB_DESC_FIELDS`: what the column itself holds for a value. -/
structure Desc where
  position : Nat
  size : Nat
deriving DecidableEq, Repr

/-- An Arrow large binary array: `len + 1` offsets into `data`; `nulls` is `none` if there are no nulls. -/
structure BinArray where
  offsets : List Nat
  data : Bytes
  nulls : Option (List Bool)
deriving DecidableEq, Repr

/-- encoder.rs:307-320 `OutOfLineBuffers`. -/
structure Oob where
  position : Nat
  buffers : List Bytes
deriving DecidableEq, Repr

/-- bit.rs `pad_bytes` with the alignment 64 (writer.rs:42 `PAGE_BUFFER_ALIGNMENT`; the alignment is not zero, so there is always
a result). -/
def pad (n : Nat) : Nat := (Bits.padBytes 64 n).getD 0

/-- encoder.rs:322-328 `add_buffer`. -/
def Oob.add (o : Oob) (b : Bytes) : Nat × Oob :=
  (o.position, { position := o.position + b.length + pad b.length, buffers := o.buffers ++ [b] })

/-- blob.rs:335-357, one step of the loop of `write_bins`: the window of two offsets and the validity of a value. -/
def writeBin (data : Bytes) (a b : Nat) (valid : Bool) (o : Oob) : Desc × Oob :=
  if valid then
    if b - a > 0 then
      let x := o.add (slice data (a, b))
      (⟨x.1, b - a⟩, x.2)
    else (⟨0, 0⟩, o)
  else (⟨1, 0⟩, o)

/-- blob.rs:335-357, the loop: `windows(2)` of the offsets zipped with the validity. -/
def writeLoop (data : Bytes) : List Nat → List Bool → Oob → List Desc × Oob
  | a :: b :: offs, v :: vs, o =>
    let x := writeBin data a b v o
    let y := writeLoop data (b :: offs) vs x.2
    (x.1 :: y.1, y.2)
  | _, _, o => ([], o)

/-- blob.rs:320-366 `write_bins`.  The check of the array type is not modelled. -/
def writeBins (arr : BinArray) (o : Oob) : List Desc × Oob :=
  writeLoop arr.data arr.offsets (arr.nulls.getD (List.replicate (arr.offsets.length - 1) true)) o

/-- writer.rs:309-342 `encode_batch`, the blob columns of the batch in turn.  Other columns add no external buffers. -/
def encodeBatch : List BinArray → Oob → List (List Desc) × Oob
  | [], o => ([], o)
  | c :: cs, o =>
    let x := writeBins c o
    let y := encodeBatch cs x.2
    (x.1 :: y.1, y.2)

/-- writer.rs:166-171 `do_write_buffer`. -/
def writeBuffer (file buf : Bytes) : Bytes := file ++ buf ++ List.replicate (pad buf.length) 0

/-- writer.rs:348-390 `write_batch`: `pages` is whatever the pages finished by this batch put into the file.  The descriptions
of the blob columns are returned; they go into ordinary pages (packed structs, C67). -/
def writeBatch (file : Bytes) (cols : List BinArray) (pages : Bytes) : List (List Desc) × Bytes :=
  let x := encodeBatch cols ⟨file.length, []⟩
  (x.1, x.2.buffers.foldl writeBuffer file ++ pages)

/-- A file written batch by batch: for every batch the descriptions of its blob columns, and the whole file. -/
def writeFile : Bytes → List (List BinArray × Bytes) → List (List (List Desc)) × Bytes
  | file, [] => ([], file)
  | file, (cols, pages) :: bs =>
    let x := writeBatch file cols pages
    let y := writeFile x.2 bs
    (x.1 :: y.1, y.2)

/-! ## Reading the column -/

/-- A range of the file; `none` if the file is too short (an error). -/
def readRange (file : Bytes) (start stop : Nat) : Option Bytes :=
  if stop ≤ start then some []
  else if stop ≤ file.length then some (slice file (start, stop)) else none

/-- blob.rs:128-139 `BlobFieldDecoder`.  `descs` are the descriptions of the rows asked for, loaded on the first wait
(`positions`, `sizes`; blob.rs:170-175); `num_rows` is their number. -/
structure Dec where
  descs : List Desc
  loaded : List Bytes
  validity : List (List Bool)
  rowsLoaded : Nat
  rowsDrained : Nat
deriving DecidableEq, Repr

/-- blob.rs:76-87. -/
def Dec.new (descs : List Desc) : Dec := ⟨descs, [], [], 0, 0⟩

/-- blob.rs:168-200 `wait_for_loaded`.  `none`: `end - start` underflows, or a read fails.  Trusted: `submit_request`
returns the bytes of the ranges, in order (C36). -/
def wait (file : Bytes) (d : Dec) (need : Nat) : Option Dec :=
  let start := d.rowsLoaded
  let stop := min (need + 1) d.descs.length
  if stop < start then none
  else
    let ds := slice d.descs (start, stop)
    match ds.mapM (fun x => readRange file x.position (x.position + x.size)) with
    | none => none
    | some bytes =>
      some { d with
        loaded := d.loaded ++ bytes
        validity := d.validity ++ [ds.map (fun x => x.position != 1 || x.size != 0)]
        rowsLoaded := stop }

/-- blob.rs:142-163 `drain_validity`, the loop; `none` is the `unwrap` of an empty queue. -/
def drainValidity : List (List Bool) → Nat → Option (List Bool × List (List Bool))
  | vs, 0 => some ([], vs)
  | [], _ + 1 => none
  | v :: vs, n + 1 =>
    if n + 1 < v.length then some (v.take (n + 1), v.drop (n + 1) :: vs)
    else
      match drainValidity vs (n + 1 - v.length) with
      | none => none
      | some (a, rest) => some (v ++ a, rest)

/-- blob.rs:252-262, the scan that makes the offsets. -/
def offsetsFrom : Nat → List Bytes → List Nat
  | n, [] => [n]
  | n, b :: bs => n :: offsetsFrom (n + b.length) bs

/-- blob.rs:249-273 `BlobArrayDecodeTask::decode`. -/
def decodeTask (bytes : List Bytes) (validity : Option (List Bool)) : BinArray :=
  { offsets := offsetsFrom 0 bytes, data := bytes.flatten, nulls := validity }

/-- blob.rs:214-222 `drain` followed by its decode task; `none` is a panic. -/
def drain (d : Dec) (n : Nat) : Option (BinArray × Dec) :=
  if d.loaded.length < n then none
  else
    match drainValidity d.validity n with
    | none => none
    | some (v, rest) =>
      some (decodeTask (d.loaded.take n) (if v.all (fun x => x) then none else some v),
        { d with loaded := d.loaded.drop n, validity := rest, rowsDrained := d.rowsDrained + n })

/-- What the caller of a page decoder does. -/
inductive Step where
  | wait (need : Nat)
  | drain (n : Nat)
deriving DecidableEq, Repr

/-- A run of the decoder: the arrays drained, in order. -/
def runDec (file : Bytes) : Dec → List Step → Option (List BinArray × Dec)
  | d, [] => some ([], d)
  | d, .wait n :: ss =>
    match wait file d n with
    | none => none
    | some d' => runDec file d' ss
  | d, .drain n :: ss =>
    match drain d n with
    | none => none
    | some (a, d') =>
      match runDec file d' ss with
      | none => none
      | some (as, d'') => some (a :: as, d'')

/-! ## A value opened as a file -/

/-- The number of values of `u64`. -/
def W : Nat := 2 ^ 64

/-- `a - b` of `u64` in a release build. -/
def wsub (a b : Nat) : Nat := (a + W - b) % W

/-- `a + b` of `u64` in a release build. -/
def wadd (a b : Nat) : Nat := (a + b) % W

/-- dataset/blob.rs:32-37 `ReaderState`.  The open reader itself is the file, which does not change. -/
inductive RState where
  | uninit (cursor : Nat)
  | opened (cursor : Nat)
  | closed
deriving DecidableEq, Repr

/-- dataset/blob.rs:40-46 `BlobFile`, with the contents of its data file (47-67 `new` looks it up by the row address and the
field). -/
structure BlobFile where
  file : Bytes
  position : Nat
  size : Nat
  state : RState
deriving DecidableEq, Repr

/-- dataset/blob.rs:47-67 `new`. -/
def BlobFile.new (file : Bytes) (position size : Nat) : BlobFile := ⟨file, position, size, .uninit 0⟩

/-- lance-io/src/local.rs:147-165 `get_range` of a local file: the length of a range whose end is not after its start is 0, and
an empty read always succeeds; a read past the end fails. -/
def getRange (file : Bytes) (start stop : Nat) : Option Bytes := readRange file start stop

/-- dataset/blob.rs:81-107 `do_with_reader`: the file is opened at the first use; a failed read leaves the cursor. -/
def withReader (b : BlobFile) (f : Nat → Option (Nat × Bytes)) : Option Bytes × BlobFile :=
  match b.state with
  | .closed => (none, b)
  | .uninit c =>
    match f c with
    | none => (none, { b with state := .opened c })
    | some (c', data) => (some data, { b with state := .opened c' })
  | .opened c =>
    match f c with
    | none => (none, { b with state := .opened c })
    | some (c', data) => (some data, { b with state := .opened c' })

/-- dataset/blob.rs:114-123 `read`.  The new cursor is `end`, a position in the data file. -/
def readAll (b : BlobFile) : Option Bytes × BlobFile :=
  withReader b (fun cursor =>
    let start := wadd b.position cursor
    let stop := wadd b.position b.size
    (getRange b.file start stop).map (fun data => (stop, data)))

/-- dataset/blob.rs:129-140 `read_up_to`. -/
def readUpTo (b : BlobFile) (len : Nat) : Option Bytes × BlobFile :=
  withReader b (fun cursor =>
    let start := wadd b.position cursor
    let readSize := min len (wsub b.size cursor)
    let stop := wadd start readSize
    (getRange b.file start stop).map (fun data => (wsub stop b.position, data)))

/-- dataset/blob.rs:143-159 `seek`; `false` is the error of a closed file. -/
def seekTo (b : BlobFile) (c : Nat) : Bool × BlobFile :=
  match b.state with
  | .closed => (false, b)
  | .uninit _ => (true, { b with state := .uninit c })
  | .opened _ => (true, { b with state := .opened c })

/-- dataset/blob.rs:162-172 `tell`. -/
def tell (b : BlobFile) : Option Nat :=
  match b.state with
  | .closed => none
  | .uninit c => some c
  | .opened c => some c

/-- dataset/blob.rs:70-74 `close`. -/
def close (b : BlobFile) : BlobFile := { b with state := .closed }

/-! ### The Python class -/

/-- `io.SEEK_SET`, `io.SEEK_CUR`, `io.SEEK_END`. -/
inductive Whence where
  | set | cur | fromEnd
deriving DecidableEq, Repr

/-- The methods of the file object. -/
inductive Op where
  | seek (offset : Int) (whence : Whence)
  | tell
  | read (n : Nat)
  | readall
  | close
  | isClosed
  | size
deriving DecidableEq, Repr

/-- What a call returns; `raised` stands for any exception. -/
inductive Ret where
  | num (n : Nat)
  | bytes (b : Bytes)
  | flag (b : Bool)
  | unit
  | raised
deriving DecidableEq, Repr

/-- python/src/dataset/blob.rs:45-48: the argument must be a `u64`, otherwise pyo3 raises before anything happens; then
blob.py:79 calls `tell`. -/
def pySeekAbs (b : BlobFile) (target : Int) : Ret × BlobFile :=
  if 0 ≤ target ∧ target < W then
    match seekTo b target.toNat with
    | (false, b') => (.raised, b')
    | (true, b') =>
      match tell b' with
      | none => (.raised, b')
      | some c => (.num c, b')
  else (.raised, b)

/-- blob.py:71-79 `seek`. -/
def pySeek (b : BlobFile) (offset : Int) : Whence → Ret × BlobFile
  | .set => pySeekAbs b offset
  | .cur =>
    match tell b with
    | none => (.raised, b)
    | some c => pySeekAbs b (c + offset)
  | .fromEnd => pySeekAbs b (b.size + offset)

/-- blob.py:62-98.  `read(n)` is `io.RawIOBase.read`: a buffer of `n` bytes is made, `readinto` is called (blob.py:97-98,
python/src/dataset/blob.rs:65-85, where the check of the buffer size always passes: at most `n` bytes come back) and what was
read is returned; `read()` and `read(-1)` are `readall`. -/
def pyStep (b : BlobFile) : Op → Ret × BlobFile
  | .seek o w => pySeek b o w
  | .tell =>
    match tell b with
    | none => (.raised, b)
    | some c => (.num c, b)
  | .read n =>
    match readUpTo b n with
    | (none, b') => (.raised, b')
    | (some d, b') => (.bytes d, b')
  | .readall =>
    match readAll b with
    | (none, b') => (.raised, b')
    | (some d, b') => (.bytes d, b')
  | .close => (.unit, close b)
  | .isClosed => (.flag (match b.state with | .closed => true | _ => false), b)
  | .size => (.num b.size, b)

/-- A history of calls on one file object: what each of them returned. -/
def pyRun : BlobFile → List Op → List Ret
  | _, [] => []
  | b, op :: ops => (pyStep b op).1 :: pyRun (pyStep b op).2 ops

/-- dataset/blob.rs:176-228 `take_blobs`: one file for every row whose description is not null.  The columns of the descriptions
have no nulls (datatypes.rs:37-41; the struct is written without validity, blob.rs:361-365), so the filter of 208-212 drops
nothing.  Trusted: the take of the descriptions (C31). -/
def takeBlobs (rows : List (Bytes × Desc)) : List BlobFile :=
  rows.map (fun x => BlobFile.new x.1 x.2.position x.2.size)

end Verif.Blob
