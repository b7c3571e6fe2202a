import Verif.Common.Sort
import Verif.Deletion.Model
import Verif.RowIds.Sequence

/-!
# Reading a fragment, and limit / offset of a scan

Models `ReadBatchParams` of `rust/lance-io/src/lib.rs` (114-126, 171-275), the row id, row address and
deletion step of `rust/lance-table/src/utils/stream.rs` (116-300), the fragment reader of
`rust/lance/src/dataset/fragment.rs` (1848-1957 `legacy_read_batch_projected`, 1959-2041
`new_read_impl`, 2070-2115 range reads), the division of a row range among fragments in
`rust/lance/src/io/exec/scan.rs` (112-187) and the place of limit and offset in a scan plan,
`rust/lance/src/dataset/scanner.rs` (619-637, 1302-1322, 1401-1413, 1464-1487, 2322-2328).
-/
namespace Verif.Read
open Verif
open Verif.Deletion (DV patchRange)
open Verif.RowIds (Seq)
open Verif.RowIds.Seq (Params sliceIds)

scoped notation "U32" => 4294967296
scoped notation "I63" => 9223372036854775808

/-! ## ReadBatchParams -/

/-- lance-io/src/lib.rs:172-180 `valid_given_len`.  `usize` values are unbounded; `len as u32` keeps
the low 32 bits. -/
def validLen : Params → Nat → Bool
  | .indices l, n => l.all (fun i => decide (i < n % U32))
  | .range s e, n => decide (s < n) && decide (e ≤ n)
  | .full, _ => true
  | .to e, n => decide (e ≤ n)
  | .from s, n => decide (s < n)

/-- lance-io/src/lib.rs:202-240 `slice`; `none` is the error.  The addition of `usize` values is
unbounded here. -/
def slice : Params → Nat → Nat → Option Params
  | .indices l, start, len => if start + len > l.length then none else some (.indices ((l.drop start).take len))
  | .range s e, start, len => if s + start + len > e then none else some (.range (s + start) (s + start + len))
  | .full, start, len => some (.range start (start + len))
  | .to e, start, len => if start + len > e then none else some (.range start (start + len))
  | .from s, start, len => some (.range (s + start) (s + start + len))

/-- `Vec::from_iter(a as u32..b as u32)` in lib.rs:249-251 and 268-272. -/
def u32Range (a b : Nat) : List Nat := List.range' (a % U32) (b % U32 - a % U32)

/-- lance-io/src/lib.rs:246-263 `to_offsets`; `none` is the error. -/
def toOffsets : Params → Option (List Nat)
  | .indices l => some l
  | .range s e => some (u32Range s e)
  | .full => none
  | .to e => some (u32Range 0 e)
  | .from _ => none

/-- lance-io/src/lib.rs:265-274 `to_offsets_total`. -/
def toOffsetsTotal : Params → Nat → List Nat
  | .indices l, _ => l
  | .range s e, _ => u32Range s e
  | .full, total => u32Range 0 total
  | .to e, _ => u32Range 0 e
  | .from s, total => u32Range s total

/-- fragment.rs:1909-1931: parameters relative to a batch turned into parameters relative to the
file.  `batchOffset as u32` wraps. -/
def fileParams (batchOffset rowsInBatch : Nat) : Params → Params
  | .indices l => .indices (l.map (fun i => i + batchOffset % U32))
  | .full => .range batchOffset (batchOffset + rowsInBatch)
  | .from s => .range (s + batchOffset) (batchOffset + rowsInBatch)
  | .to e => .range batchOffset (e + batchOffset)
  | .range s e => .range (s + batchOffset) (e + batchOffset)

/-! ## Row ids, row addresses and deletions (stream.rs) -/

/-- A cell of the `_rowid` or `_rowaddr` column: the column was not asked for, or it holds a null, or
a value. -/
inductive Cell where
  | absent
  | null
  | val (n : Nat)
deriving DecidableEq, Repr

/-- A row of a returned batch. -/
structure Row (α : Type) where
  data : α
  id : Cell
  addr : Cell
deriving DecidableEq, Repr

/-- stream.rs:161-179 `RowIdAndDeletesConfig` (without `total_num_rows`, which is not used). -/
structure Cfg where
  params : Params
  withId : Bool
  withAddr : Bool
  dv : Option DV
  seq : Option Seq
  nulls : Bool

/-- lance-core/src/utils/address.rs:29-31 `RowAddress::new_from_parts`. -/
def mkAddr (frag off : Nat) : Nat := frag * U32 + off

/-- stream.rs:187-193: `Some(NoDeletions)` counts as no deletion vector. -/
def realDv : Option DV → Option DV
  | some .none => none
  | d => d

/-- The columns of a batch: the data rows with their cells.  `RecordBatch::try_with_column` fails if
the lengths differ. -/
def addColumns {α : Type} (batch : List α) (ids addrs : Option (List Nat)) : Option (List (Row α)) :=
  if (ids.all (fun l => l.length == batch.length)) && (addrs.all (fun l => l.length == batch.length)) then
    some (batch.zipIdx.map (fun x =>
      { data := x.1
        id := match ids with | none => .absent | some l => .val (l.getD x.2 0)
        addr := match addrs with | none => .absent | some l => .val (l.getD x.2 0) }))
  else none

/-- A cell whose row is deleted becomes null; a column that is not there stays so. -/
def Cell.nullify : Cell → Cell
  | .absent => .absent
  | _ => .null

/-- stream.rs:116-158 `apply_deletions_as_nulls`; the mask has one entry for each row. -/
def deletionsAsNulls {α : Type} (rows : List (Row α)) (mask : List Bool) : List (Row α) :=
  if mask.all (fun b => !b) then []
  else if mask.all (fun b => b) then rows
  else (rows.zip mask).map (fun x =>
    if x.2 then x.1 else { x.1 with id := x.1.id.nullify, addr := x.1.addr.nullify })

/-- `arrow::compute::filter_record_batch`. -/
def filterBatch {α : Type} (rows : List (Row α)) (mask : List Bool) : List (Row α) :=
  ((rows.zip mask).filter (fun x => x.2)).map (fun x => x.1)

/-- stream.rs:198-214, the row addresses of the batch: `none` is a panic (`unwrap` of the slice or of
the offsets), `some none` means that they are not needed. -/
def batchAddrs (c : Cfg) (frag off n : Nat) : Option (Option (List Nat)) :=
  if c.withAddr || (c.withId && c.seq.isNone) || (realDv c.dv).isSome then
    match (slice c.params off n).bind toOffsets with
    | none => none
    | some l => some (some (l.map (mkAddr frag)))
  else some none

/-- stream.rs:216-231, the row ids of the batch; `none` is a panic of `RowIdSequence::slice`. -/
def batchIds (c : Cfg) (off n : Nat) (addrs : Option (List Nat)) : Option (Option (List Nat)) :=
  if c.withId then
    match c.seq with
    | some q => match sliceIds q off n with
      | .ok l => some (some l)
      | .error _ => none
    | none => some addrs
  else some none

/-- stream.rs:237-273: the deletion mask and the result. -/
def applyMask {α : Type} (c : Cfg) (addrs : List Nat) (rows : List (Row α)) : List (Row α) :=
  match (realDv c.dv).bind (fun d => d.buildPredicate addrs) with
  | none => rows
  | some mask => if c.nulls then deletionsAsNulls rows mask else filterBatch rows mask

/-- stream.rs:181-274 `apply_row_id_and_deletes`; `none` is an error or a panic. -/
def applyBatch {α : Type} (c : Cfg) (frag off : Nat) (batch : List α) : Option (List (Row α)) :=
  match batchAddrs c frag off batch.length with
  | none => none
  | some addrs =>
    match batchIds c off batch.length addrs with
    | none => none
    | some ids =>
      match addColumns batch ids (if c.withAddr then addrs else none) with
      | none => none
      | some rows => some (applyMask c (addrs.getD []) rows)

/-- stream.rs:281-300 `wrap_with_row_id_and_delete`: each batch knows how many rows came before it.
A failed batch fails the read. -/
def wrap {α : Type} (c : Cfg) (frag : Nat) : Nat → List (List α) → Option (List (List (Row α)))
  | _, [] => some []
  | off, b :: bs =>
    match applyBatch c frag off b with
    | none => none
    | some r => match wrap c frag (off + b.length) bs with
      | none => none
      | some rs => some (r :: rs)

/-! ## The fragment reader -/

/-- A fragment open for reading: `file o` is what the data files hold in row `o` (all columns of the
projection; the unit type if there are none). -/
structure Frag (α : Type) where
  id : Nat
  rows : Nat
  dv : Option DV
  seq : Option Seq
  file : Nat → α

/-- What the reader was opened with (fragment.rs, `FragmentReader`). -/
structure Opts where
  withId : Bool
  withAddr : Bool
  nulls : Bool
deriving DecidableEq, Repr

/-- fragment.rs:2028-2037, the configuration passed on. -/
def mkCfg {α : Type} (f : Frag α) (o : Opts) (p : Params) : Cfg :=
  { params := p, withId := o.withId, withAddr := o.withAddr, dv := f.dv, seq := f.seq, nulls := o.nulls }

/-- fragment.rs:1983-1995: the batches of a read without columns. -/
def emptyBatches (batchSize : Nat) : Nat → Nat → List (List Unit)
  | 0, _ => []
  | fuel + 1, selected =>
    if selected = 0 then []
    else List.replicate (min batchSize selected) () :: emptyBatches batchSize fuel (selected - batchSize)

/-- fragment.rs:1959-2055 `new_read_impl`; `none` is an error or a panic.  Trusted: the file readers
return the rows at the asked offsets in order, cut into batches in some way (`split`), the same way
for every data file (`merge_streams` panics otherwise). -/
def readImpl {α : Type} (split : List α → List (List α)) (f : Frag α) (o : Opts) (p : Params) :
    Option (List (List (Row α))) :=
  if validLen p (f.rows % U32) then
    wrap (mkCfg f o p) f.id 0 (split ((toOffsetsTotal p (f.rows % U32)).map f.file))
  else none

/-- fragment.rs:2107-2111 `read_all`. -/
def readAll {α : Type} (split : List α → List (List α)) (f : Frag α) (o : Opts) :
    Option (List (List (Row α))) :=
  readImpl split f o .full

/-- fragment.rs:2070-2090 `do_read_range` with `skip_deleted_rows`, 2092-2098 `read_range`. -/
def readRange {α : Type} (split : List α → List (List α)) (f : Frag α) (o : Opts) (s e : Nat) :
    Option (List (List (Row α))) :=
  match f.dv with
  | some d => readImpl split f o (.range (patchRange d s e).1 (patchRange d s e).2)
  | none => readImpl split f o (.range s e)

/-- fragment.rs:2100-2105 `take_range`. -/
def takeRange {α : Type} (split : List α → List (List α)) (f : Frag α) (o : Opts) (s e : Nat) :
    Option (List (List (Row α))) :=
  readImpl split f o (.range s e)

/-- fragment.rs:1848-1957 `legacy_read_batch_projected` with at least one column: batch number
`batchId` of a file whose batches have `batchRows` rows (the last one, `rowsInBatch`, may be shorter).
`Reader::read_batch` returns the rows of the batch at the offsets. -/
def legacyReadBatch {α : Type} (f : Frag α) (o : Opts) (batchRows rowsInBatch batchId : Nat) (p : Params) :
    Option (List (Row α)) :=
  applyBatch (mkCfg f o (fileParams (batchId * batchRows) rowsInBatch p)) f.id 0
    ((toOffsetsTotal p rowsInBatch).map (fun i => f.file (batchId * batchRows + i)))

/-! ## A row range divided among fragments (scan.rs) -/

/-- fragment.rs `count_rows(None)` for fragments with recorded row counts: physical rows minus
deleted rows. -/
def countRows {α : Type} (f : Frag α) : Nat :=
  f.rows - (match f.dv with | some d => d.len | none => 0)

/-- scan.rs:149-187, the `while` loop: which live rows to read from which fragment. -/
def divide {α : Type} : List (Frag α) → Nat → Nat → List (Frag α × Nat × Nat)
  | [], _, _ => []
  | f :: fs, skip, take =>
    if take = 0 then []
    else if skip ≥ countRows f then divide fs (skip - countRows f) take
    else
      (f, skip % U32, (skip + min (countRows f - skip) take) % U32) ::
        divide fs 0 (take - min (countRows f - skip) take)

/-- Collect the rows of the reads in order (`try_buffered`, `try_flatten`): the first failure fails
the scan. -/
def concatReads {α : Type} : List (Option (List (List (Row α)))) → Option (List (Row α))
  | [] => some []
  | none :: _ => none
  | some bs :: rest => match concatReads rest with
    | none => none
    | some rows => some (bs.flatten ++ rows)

/-- scan.rs:112-255 `LanceStream::try_new_v2`. -/
def scanV2 {α : Type} (split : List α → List (List α)) (o : Opts) (frags : List (Frag α))
    (range : Option (Nat × Nat)) : Option (List (Row α)) :=
  match range with
  | none => concatReads (frags.map (fun f => readAll split f o))
  | some r => concatReads ((divide frags r.1 (r.2 - r.1)).map (fun x => readRange split x.1 o x.2.1 x.2.2))

/-- scan.rs:258-330 `LanceStream::try_new_v1` with ordered output: no range. -/
def scanV1 {α : Type} (split : List α → List (List α)) (o : Opts) (frags : List (Frag α)) :
    Option (List (Row α)) :=
  concatReads (frags.map (fun f => readAll split f o))

/-! ## Limit and offset in the plan (scanner.rs) -/

/-- The parts of a `Scanner` that matter here.  `limit` and `offset` are non-negative
(scanner.rs:619-637).  `order` is the sort key of `order_by`. -/
structure Scanner (α : Type) where
  filter : Option (α → Bool)
  order : Option (α → Nat)
  limit : Option Nat
  offset : Option Nat

/-- `(offset + limit).min(num_rows) as u64` (scanner.rs:1319) in `i64` with wrap-around (as in a
release build; a debug build panics on overflow). -/
def rangeEnd (offset limit numRows : Nat) : Nat :=
  if offset + limit < I63 then min (offset + limit) numRows else offset + limit

/-- scanner.rs:1302-1321: the range passed to the scan, when there is no filter. -/
def scanRange {α : Type} (s : Scanner α) (numRows : Nat) : Option (Nat × Nat) :=
  match s.filter with
  | some _ => none
  | none => match s.limit, s.offset with
    | none, none => none
    | some l, none => some (0, min l numRows)
    | none, some o => some (min o numRows, numRows)
    | some l, some o => some (min o numRows, rangeEnd o l numRows)

/-- scanner.rs:1453-1461, stage 2 (`FilterExec`). -/
def filterStage {α : Type} (filter : Option (α → Bool)) (rows : List (Row α)) : List (Row α) :=
  match filter with
  | none => rows
  | some p => rows.filter (fun r => p r.data)

/-- scanner.rs:1464-1482, stage 3.  `SortExec` need not be stable; here it is. -/
def sortStage {α : Type} (order : Option (α → Nat)) (rows : List (Row α)) : List (Row α) :=
  match order with
  | none => rows
  | some key => sortBy (fun r => key r.data) rows

/-- scanner.rs:2322-2328 `limit_node` (`GlobalLimitExec`). -/
def limitNode {α : Type} (s : Scanner α) (rows : List (Row α)) : List (Row α) :=
  match s.limit with
  | none => rows.drop (s.offset.getD 0)
  | some l => (rows.drop (s.offset.getD 0)).take l

/-- scanner.rs:1485 stage 4: whether there is a limit node. -/
def hasLimitNode {α : Type} (s : Scanner α) (useLimitNode : Bool) : Bool :=
  useLimitNode && (decide (s.limit.getD 0 > 0) || s.offset.isSome)

/-- scanner.rs:1230-1510 `create_plan` and its execution, for a scan without vector search, full text
search or scalar index; `numRows` is `dataset.count_all_rows()`.  The filter is applied in stage 2 to
the rows of the scan (a fragment-level pushdown of the filter in legacy files is not modelled).  The
later `take` of the remaining columns and the projection keep the rows. -/
def runScan {α : Type} (split : List α → List (List α)) (legacy : Bool) (s : Scanner α) (o : Opts)
    (frags : List (Frag α)) (numRows : Nat) : Option (List (Row α)) :=
  let range := scanRange s numRows
  match (if legacy then scanV1 split o frags else scanV2 split o frags range) with
  | none => none
  | some rows =>
    let sorted := sortStage s.order (filterStage s.filter rows)
    if hasLimitNode s (!(range.isSome && !legacy)) then some (limitNode s sorted) else some sorted

end Verif.Read
