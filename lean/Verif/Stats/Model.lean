/-!
# Page statistics and scans that use them

Models the statistics the writer of version 1 files collects for every page (`rust/lance-file/src/writer/statistics.rs` 45-533),
what a scan concludes from them (`rust/lance/src/io/exec/pushdown_scan.rs` 531-632 `extract_guarantees`) and the scan itself
(312-529, 634-675).  Simplification of a predicate is DataFusion's; it is a parameter here.

Integers stand for all the integer types, dates and decimals; `lo` and `hi` are the bounds of the type.  A float is the number that
`f64::total_cmp` compares: its bits as a signed integer, with all bits but the sign flipped if the sign is set.  So `0.0` is 0, `-0.0` is
-1, and the values beyond the infinities are the NaNs.
-/
namespace Verif.Stats

/-- A value of a column that is not null. -/
inductive Val where
  | int (i : Int)
  | flt (k : Int)
  | bool (b : Bool)
  | bytes (l : List Nat)
deriving DecidableEq, Repr

/-- The data types with statistics (statistics.rs:546-570): the integer types, dates and decimals with the bounds of the native type;
Float32 and Float64 with the number of +infinity; Boolean; Utf8 and LargeUtf8; Binary and LargeBinary. -/
inductive Kind where
  | int (lo hi : Int)
  | flt (inf : Int)
  | bool
  | utf8
  | binary
deriving DecidableEq, Repr

/-! ## Orders -/

/-- Comparison of byte strings (`Ord` of slices and of `str`). -/
def bytesCmp : List Nat → List Nat → Ordering
  | [], [] => .eq
  | [], _ :: _ => .lt
  | _ :: _, [] => .gt
  | a :: as, b :: bs => if a < b then .lt else if b < a then .gt else bytesCmp as bs

/-- `Ord` of integers. -/
def intCmp (a b : Int) : Ordering := if a < b then .lt else if b < a then .gt else .eq

/-- The number of negative infinity. -/
def negInf (inf : Int) : Int := - inf - 1

/-- `f64::is_nan`. -/
def isNan (inf k : Int) : Bool := decide (inf < k) || decide (k < negInf inf)

/-- -0.0 and 0.0 are equal for `partial_cmp`. -/
def norm (k : Int) : Int := if k = -1 then 0 else k

/-- `f64::partial_cmp`. -/
def fltCmp (inf a b : Int) : Option Ordering :=
  if isNan inf a || isNan inf b then none else some (intCmp (norm a) (norm b))

/-- The order of Arrow's comparison kernels and of `ScalarValue`: total order for floats. -/
def vcmp : Val → Val → Option Ordering
  | .int a, .int b => some (intCmp a b)
  | .flt a, .flt b => some (intCmp a b)
  | .bool a, .bool b => some (if a = b then .eq else if b then .lt else .gt)
  | .bytes a, .bytes b => some (bytesCmp a b)
  | _, _ => none

/-! ## Collecting statistics -/

/-- statistics.rs:38-45 `StatisticsRow`; `none` as a bound is a null. -/
structure Stat where
  nulls : Nat
  min : Option Val
  max : Option Val
deriving DecidableEq, Repr

/-- `array.null_count()`. -/
def nullCount {α : Type} (a : List (Option α)) : Nat := a.countP (fun x => x.isNone)

/-- statistics.rs:65-74 and 117-126, the loop body: one value that is not null. -/
def minMax {α : Type} (cmp : α → α → Option Ordering) (s : α × α) (v : α) : α × α :=
  (if cmp v s.1 = some .lt then v else s.1, if cmp v s.2 = some .gt then v else s.2)

/-- statistics.rs:47-80 `compute_primitive_statistics`: the arrays in turn, those with only nulls are skipped. -/
def intLoop : (Int × Int) × Nat × Bool → List (List (Option Int)) → (Int × Int) × Nat × Bool
  | s, [] => s
  | (m, n, allNull), a :: as =>
    let n' := n + nullCount a
    if nullCount a = a.length then intLoop (m, n', allNull) as
    else intLoop (a.foldl (fun s x => match x with | some v => minMax (fun a b => some (intCmp a b)) s v | none => s) m, n', false) as

/-- statistics.rs:47-98 (and 158-171 for decimals). -/
def intStats (lo hi : Int) (arrays : List (List (Option Int))) : Stat :=
  let r := intLoop ((hi, lo), 0, true) arrays
  if r.2.2 then ⟨r.2.1, some (.int lo), some (.int hi)⟩ else ⟨r.2.1, some (.int r.1.1), some (.int r.1.2)⟩

/-- statistics.rs:100-135, the loop of `compute_float_statistics`. -/
def fltLoop (inf : Int) : (Int × Int) × Nat → List (List (Option Int)) → (Int × Int) × Nat
  | s, [] => s
  | (m, n), a :: as =>
    let n' := n + nullCount a
    if nullCount a = a.length then fltLoop inf (m, n') as
    else fltLoop inf (a.foldl (fun s x => match x with | some v => minMax (fltCmp inf) s v | none => s) m, n') as

/-- statistics.rs:100-156 `compute_float_statistics` and `get_float_statistics`. -/
def fltStats (inf : Int) (arrays : List (List (Option Int))) : Stat :=
  let r := fltLoop inf ((inf, negInf inf), 0) arrays
  let m := if fltCmp inf r.1.1 inf = some .eq ∧ fltCmp inf r.1.2 (negInf inf) = some .eq then (negInf inf, inf) else r.1
  let mn := if fltCmp inf m.1 0 = some .eq then -1 else m.1
  let mx := if fltCmp inf m.2 (-1) = some .eq then 0 else m.2
  ⟨r.2, some (.flt mn), some (.flt mx)⟩

/-- statistics.rs:450-480, the loop of `get_boolean_statistics`: it ends when both values were seen. -/
def boolLoop : Bool × Bool × Nat → List (List (Option Bool)) → Bool × Bool × Nat
  | s, [] => s
  | (t, f, n), a :: as =>
    let n' := n + nullCount a
    if nullCount a = a.length then boolLoop (t, f, n') as
    else
      let t' := t || a.contains (some true)
      let f' := f || a.contains (some false)
      if t' && f' then (t', f', n') else boolLoop (t', f', n') as

/-- statistics.rs:450-487 `get_boolean_statistics`. -/
def boolStats (arrays : List (List (Option Bool))) : Stat :=
  let r := boolLoop (false, false, 0) arrays
  ⟨r.2.2, some (.bool (r.1 && !r.2.1)), some (.bool (r.1 || !r.2.1))⟩

/-- statistics.rs:36 `BINARY_PREFIX_LENGTH`. -/
def prefixLen : Nat := 64

/-- A byte that continues a character. -/
def isCont (b : Nat) : Bool := decide (0x80 ≤ b) && decide (b < 0xC0)

/-- `str::char_indices`: the characters, each as its bytes. -/
def chars : List Nat → List (List Nat)
  | [] => []
  | b :: bs =>
    match chars bs with
    | [] => [[b]]
    | c :: cs => if isCont (c.headD 0) then (b :: c) :: cs else [b] :: c :: cs

/-- statistics.rs:174-189, the loop of `truncate_utf8`, on the characters in reverse order. -/
def truncLoop (length : Nat) : List (List Nat) → Option (List Nat)
  | [] => none
  | c :: rest =>
    if (c :: rest).reverse.flatten.length ≤ length then some (c :: rest).reverse.flatten else truncLoop length rest

/-- statistics.rs:173-189 `truncate_utf8`; `none` is also the failed assertion. -/
def truncUtf8 (data : List Nat) (length : Nat) : Option (List Nat) :=
  if data.length < length then none else truncLoop length (chars data).reverse

/-- `str::from_utf8` succeeds (Unicode table 3-7). -/
def utf8Valid : List Nat → Bool
  | [] => true
  | a :: rest =>
    if a < 0x80 then utf8Valid rest
    else match rest with
    | b :: rest2 =>
      if 0xC2 ≤ a ∧ a < 0xE0 then isCont b && utf8Valid rest2
      else match rest2 with
      | c :: rest3 =>
        if a = 0xE0 then decide (0xA0 ≤ b ∧ b < 0xC0) && isCont c && utf8Valid rest3
        else if (0xE1 ≤ a ∧ a < 0xED) ∨ a = 0xEE ∨ a = 0xEF then isCont b && isCont c && utf8Valid rest3
        else if a = 0xED then decide (0x80 ≤ b ∧ b < 0xA0) && isCont c && utf8Valid rest3
        else match rest3 with
        | d :: rest4 =>
          if a = 0xF0 then decide (0x90 ≤ b ∧ b < 0xC0) && isCont c && isCont d && utf8Valid rest4
          else if 0xF1 ≤ a ∧ a < 0xF4 then isCont b && isCont c && isCont d && utf8Valid rest4
          else if a = 0xF4 then decide (0x80 ≤ b ∧ b < 0x90) && isCont c && isCont d && utf8Valid rest4
          else false
        | [] => false
      | [] => false
    | [] => false

/-- statistics.rs:191-213 `increment_utf8`, on the bytes in reverse order; `suf` are the bytes that could not be incremented, as they
were. -/
def incUtf8Loop : List Nat → List Nat → Option (List Nat)
  | [], _ => none
  | b :: rp, suf =>
    match (List.range' (b + 1) (255 - b)).find? (fun x => utf8Valid (rp.reverse ++ x :: suf)) with
    | some x => some (rp.reverse ++ x :: suf)
    | none => incUtf8Loop rp (b :: suf)

/-- statistics.rs:191-213 `increment_utf8`. -/
def incUtf8 (data : List Nat) : Option (List Nat) := incUtf8Loop data.reverse []

/-- statistics.rs:227-240 `increment`, on the bytes in reverse order. -/
def incLoop : List Nat → List Nat → Option (List Nat)
  | [], _ => none
  | b :: rp, suf => if b + 1 < 256 then some (rp.reverse ++ (b + 1) :: suf) else incLoop rp (0 :: suf)

/-- statistics.rs:227-240 `increment`. -/
def inc (data : List Nat) : Option (List Nat) := incLoop data.reverse []

/-- statistics.rs:259-281 and 330-355, the loop body: `none` is the panic of `unwrap`. -/
def bytesStep (trunc : List Nat → Nat → Option (List Nat)) (s : Option (List Nat) × Option (List Nat) × Bool) (v : List Nat) :
    Option (Option (List Nat) × Option (List Nat) × Bool) :=
  let cut : Option (List Nat × Bool) := if v.length > prefixLen then (trunc v prefixLen).map (fun p => (p, true)) else some (v, s.2.2)
  cut.map (fun c =>
    (match s.1 with
      | some m => if bytesCmp c.1 m = .lt then some c.1 else some m
      | none => some c.1,
     match s.2.1 with
      | some m => if bytesCmp c.1 m = .gt then some c.1 else some m
      | none => some c.1, c.2))

/-- The values of an array in turn. -/
def bytesArray (trunc : List Nat → Nat → Option (List Nat)) :
    Option (List Nat) × Option (List Nat) × Bool → List (Option (List Nat)) → Option (Option (List Nat) × Option (List Nat) × Bool)
  | s, [] => some s
  | s, none :: vs => bytesArray trunc s vs
  | s, some v :: vs => match bytesStep trunc s v with | none => none | some s' => bytesArray trunc s' vs

/-- statistics.rs:250-283 and 322-357, the arrays in turn. -/
def bytesLoop (trunc : List Nat → Nat → Option (List Nat)) :
    (Option (List Nat) × Option (List Nat) × Bool) × Nat → List (List (Option (List Nat))) →
    Option ((Option (List Nat) × Option (List Nat) × Bool) × Nat)
  | s, [] => some s
  | (s, n), a :: as =>
    let n' := n + nullCount a
    if nullCount a = a.length then bytesLoop trunc (s, n') as
    else match bytesArray trunc s a with | none => none | some s' => bytesLoop trunc (s', n') as

/-- statistics.rs:242-315 `get_string_statistics` and 317-385 `get_binary_statistics`. -/
def bytesStats (trunc : List Nat → Nat → Option (List Nat)) (incr : List Nat → Option (List Nat))
    (arrays : List (List (Option (List Nat)))) : Option Stat :=
  (bytesLoop trunc ((none, none, false), 0) arrays).map (fun r =>
    ⟨r.2, r.1.1.map .bytes, (if r.1.2.2 then r.1.2.1.bind incr else r.1.2.1).map .bytes⟩)

/-- statistics.rs:215-225 `truncate_binary`. -/
def truncBinary (data : List Nat) (length : Nat) : Option (List Nat) :=
  if data.length < length then none else some (data.take length)

def Val.int? : Val → Int | .int i => i | _ => 0
def Val.flt? : Val → Int | .flt i => i | _ => 0
def Val.bool? : Val → Bool | .bool b => b | _ => false
def Val.bytes? : Val → List Nat | .bytes l => l | _ => []

/-- statistics.rs:546-590 `collect_statistics`: the page given as its arrays. -/
def collect (k : Kind) (arrays : List (List (Option Val))) : Option Stat :=
  match k with
  | .int lo hi => some (intStats lo hi (arrays.map (·.map (·.map Val.int?))))
  | .flt inf => some (fltStats inf (arrays.map (·.map (·.map Val.flt?))))
  | .bool => some (boolStats (arrays.map (·.map (·.map Val.bool?))))
  | .utf8 => bytesStats truncUtf8 incUtf8 (arrays.map (·.map (·.map Val.bytes?)))
  | .binary => bytesStats truncBinary inc (arrays.map (·.map (·.map Val.bytes?)))

/-! ## What a scan concludes -/

/-- DataFusion's `NullableInterval`. -/
inductive Guar where
  | notNull (lo hi : Option Val)
  | null
  | maybe (lo hi : Option Val)
deriving DecidableEq, Repr

/-- pushdown_scan.rs:577-620, for one field of one batch. -/
def guarantee (nullable : Bool) (batchSize : Nat) (s : Stat) : Guar :=
  let n := if nullable then s.nulls else 0
  if n = 0 then .notNull s.min s.max else if n = batchSize then .null else .maybe s.min s.max

/-! ## The scan -/

/-- Comparison operators. -/
inductive Op where
  | lt | le | gt | ge | eq | ne
deriving DecidableEq, Repr

/-- Predicates. -/
inductive Expr where
  | lit (b : Option Bool)
  | cmp (op : Op) (f : Nat) (v : Val)
  | isNull (f : Nat)
  | and (a b : Expr)
  | or (a b : Expr)
  | not (a : Expr)
deriving DecidableEq, Repr

/-- `Expr::column_refs`. -/
def Expr.cols : Expr → List Nat
  | .lit _ => []
  | .cmp _ f _ => [f]
  | .isNull f => [f]
  | .and a b => a.cols ++ b.cols
  | .or a b => a.cols ++ b.cols
  | .not a => a.cols

def Op.holds : Op → Ordering → Bool
  | .lt, o => o == .lt
  | .le, o => o != .gt
  | .gt, o => o == .gt
  | .ge, o => o != .lt
  | .eq, o => o == .eq
  | .ne, o => o != .eq

/-- SQL logic. -/
def and3 : Option Bool → Option Bool → Option Bool
  | some false, _ => some false
  | _, some false => some false
  | some true, some true => some true
  | _, _ => none

def or3 : Option Bool → Option Bool → Option Bool
  | some true, _ => some true
  | _, some true => some true
  | some false, some false => some false
  | _, _ => none

/-- What the predicate says of a row, given by its fields. -/
def Expr.eval (row : Nat → Option Val) : Expr → Option Bool
  | .lit b => b
  | .cmp op f v => (row f).bind (fun x => (vcmp x v).map op.holds)
  | .isNull f => some (row f).isNone
  | .and a b => and3 (a.eval row) (b.eval row)
  | .or a b => or3 (a.eval row) (b.eval row)
  | .not a => (a.eval row).map (!·)

/-- A batch (page) of a fragment: the fields of its rows, which of them are deleted, and their addresses and ids. -/
structure Page where
  size : Nat
  cell : Nat → Nat → Option Val
  live : Nat → Bool
  addr : Nat → Nat
  rowid : Nat → Nat

/-- A row as it is returned: with `_rowid` and `_rowaddr` where they were asked for (the inner `none` is a null). -/
structure Out where
  rowid : Option (Option Nat)
  addr : Option (Option Nat)
  vals : List (Nat × Option Val)
deriving DecidableEq, Repr

/-- fragment.rs:1848-1960 `legacy_read_batch_projected`: the given rows of the batch; deleted rows are left out, or kept with null id
and address (C28 models this in full). -/
def readCols (p : Page) (sel : List Nat) (nulls withId withAddr : Bool) (fields : List Nat) : List Out :=
  (sel.filter (fun o => p.live o || nulls)).map (fun o =>
    { rowid := if withId then some (if p.live o then some (p.rowid o) else none) else none
      addr := if withAddr then some (if p.live o then some (p.addr o) else none) else none
      vals := fields.map (fun f => (f, p.cell o f)) })

/-- What the evaluation of a physical expression returns. -/
inductive Columnar where
  | scalar (b : Option Bool)
  | array (l : List (Option Bool))
deriving DecidableEq, Repr

/-- The value of a field of a row that was loaded. -/
def Out.get (r : Out) (f : Nat) : Option Val := (r.vals.find? (fun x => x.1 == f)).bind (·.2)

/-- pushdown_scan.rs:503-529 `final_projection`: `none` if a field is missing. -/
def finalProjection (proj : List Nat) (withId withAddr : Bool) (r : Out) : Option Out :=
  if proj.all (fun f => r.vals.any (fun x => x.1 == f)) then
    some { rowid := if withId then r.rowid else none
           addr := if withAddr then r.addr else none
           vals := proj.map (fun f => (f, r.get f)) }
  else none

/-- `batch.merge` of rows. -/
def mergeRow (a b : Out) : Out := { a with vals := a.vals ++ b.vals }

/-- pushdown_scan.rs:312-501 `read_batch`.  `evaluate` is DataFusion's evaluation of the predicate on the rows loaded;
`none` is an error; the empty list stands also for a batch that is left out.  Deleted rows are not kept (`make_deletions_null` is
false, scanner.rs:1385). -/
def readBatch (evaluate : Expr → List Out → Columnar) (proj : List Nat) (withId withAddr : Bool) (p : Page) (pred : Expr) :
    Option (List Out) :=
  match pred with
  | .lit (some true) => (readCols p (List.range p.size) false withId withAddr proj).mapM (finalProjection proj withId withAddr)
  | .lit (some false) => some []
  | e =>
    let batch := readCols p (List.range p.size) true withId true e.cols.eraseDups
    let finish (sel : List Nat) (rows : List Out) : Option (List Out) :=
      let remaining := proj.filter (fun f => !e.cols.contains f)
      let merged : Option (List Out) :=
        if remaining.isEmpty then some rows
        else
          let rest := readCols p sel false false false remaining
          if rest.length = rows.length then some (List.zipWith mergeRow rows rest) else none
      merged.bind (fun rows => rows.mapM (finalProjection proj withId withAddr))
    match evaluate e batch with
    | .scalar (some true) => finish (List.range p.size) (batch.filter (fun r => r.addr.bind id != none))
    | .scalar _ => some []
    | .array l =>
      let sel := ((List.range batch.length).zip (l.zip batch)).filterMap (fun x =>
        if x.2.1.getD false && (x.2.2.addr.bind id != none) then some x.1 else none)
      if sel.isEmpty then some [] else finish sel (sel.filterMap (fun i => batch[i]?))

/-- The statistics of a page for a field; `none` if there are none (another data file, or a type without statistics). -/
abbrev Stats := Nat → Option Stat

/-- pushdown_scan.rs:634-675 `simplified_predicates`, for one batch: the guarantees for the fields of the predicate, then DataFusion.
An error of the simplifier keeps the predicate. -/
def simplified (simp : List (Nat × Guar) → Expr → Option Expr) (nullable : Nat → Bool) (pred : Expr) (p : Page) (st : Option Stats) :
    Expr :=
  match st with
  | none => pred
  | some st =>
    (simp (pred.cols.eraseDups.filterMap (fun f => (st f).map (fun s => (f, guarantee (nullable f) p.size s)))) pred).getD pred

/-- pushdown_scan.rs:270-310 `scan`: batches whose predicate is false are left out. -/
def scan (simp : List (Nat × Guar) → Expr → Option Expr) (evaluate : Expr → List Out → Columnar) (nullable : Nat → Bool)
    (proj : List Nat) (withId withAddr : Bool) (pred : Expr) (pages : List (Page × Option Stats)) : Option (List Out) :=
  (((pages.map (fun x => (x.1, simplified simp nullable pred x.1 x.2))).filter (fun x => x.2 != .lit (some false))).mapM
    (fun x => readBatch evaluate proj withId withAddr x.1 x.2)).map List.flatten

end Verif.Stats
