/-!
# Reading TFRecord files

`infer_tfrecord_schema` and `read_tfrecord` (`rust/lance/src/utils/tfrecord.rs`), on records that are already parsed.  Panics and errors are `none`.
-/
namespace Verif.Tfrecord

/-- The kinds of a feature with its values; floats are their bits, bytes are numbers.  `unset` is a feature without kind. -/
inductive Feature where
  | bytes (values : List (List Nat))
  | floats (values : List Nat)
  | ints (values : List Int)
  | unset
deriving DecidableEq, Repr

/-- A record: its features by name (a number), or `none` if the message has no features. -/
abbrev Record := Option (List (Nat × Feature))

/-- The types of tensors. -/
inductive Dtype where
  | half
  | bfloat16
  | float
  | double
  | other
deriving DecidableEq, Repr

/-- A tensor: `dims` is `none` if the message has no shape; `addr` is the address at which the decoder put the content. -/
structure Tensor where
  dims : Option (List Nat)
  dtype : Dtype
  content : List Nat
  addr : Nat
  halfVal : List Nat
  floatVal : List Nat
  doubleVal : List Nat
deriving DecidableEq, Repr

/-- The types of leaves.  Simplification: other types are an error and left out. -/
inductive Leaf where
  | int64
  | float32
  | binary
  | utf8
  | float16
  | bfloat16
  | float64
deriving DecidableEq, Repr

/-- `tfrecord.rs` 397-403. -/
structure TypeInfo where
  leaf : Leaf
  fsl : Option Nat
  inList : Bool
deriving DecidableEq, Repr

/-- A value of a column. -/
inductive Cell where
  | null
  | int (i : Int)
  | float (bits : Nat)
  | bytes (b : List Nat)
  | list (l : List Cell)
deriving Repr

/-- The decoders: of tensors (`TensorProto::decode`), and of strings (`String::from_utf8_lossy`). -/
structure Decoders where
  tensor : List Nat → Option Tensor
  utf8 : List Nat → List Nat

/-! ## Values -/

/-- `chunks_exact`: with `fuel` at least the length. -/
def chunksExactAux (w : Nat) : Nat → List Nat → List (List Nat)
  | 0, _ => []
  | fuel + 1, l => if w = 0 ∨ l.length < w then [] else l.take w :: chunksExactAux w fuel (l.drop w)

/-- `chunks_exact`. -/
def chunksExact (w : Nat) (l : List Nat) : List (List Nat) := chunksExactAux w l.length l

/-- `from_le_bytes`. -/
def fromLe (b : List Nat) : Nat := b.foldr (fun x n => x + 256 * n) 0

/-- The length of the first part of `align_to` (`tfrecord.rs` 781): the bytes before the first aligned address. -/
def prefixLen (w addr len : Nat) : Nat := min len ((w - addr % w) % w)

/-- `tfrecord.rs` 767-790: the values of the three parts that `align_to` gives. -/
def fromSlice (w addr : Nat) (bytes : List Nat) : List Nat :=
  let p := prefixLen w addr bytes.length
  let m := (bytes.length - p) / w * w
  ((chunksExact w (bytes.take p)) ++ chunksExact w ((bytes.drop p).take m) ++ chunksExact w (bytes.drop (p + m))).map fromLe

/-- `tfrecord.rs` 632-731: the values that a tensor adds to a column, by the type of the column. -/
def tensorValues (leaf : Leaf) (t : Tensor) : Option (List Nat) :=
  match leaf with
  | .float16 => some (if t.halfVal.isEmpty then fromSlice 2 t.addr t.content else t.halfVal.map (· % 2 ^ 16))
  | .bfloat16 => some (if t.halfVal.isEmpty then (chunksExact 2 t.content).map fromLe else t.halfVal.map (· % 2 ^ 16))
  | .float32 => some (if t.floatVal.isEmpty then fromSlice 4 t.addr t.content else t.floatVal)
  | .float64 => some (if t.floatVal.isEmpty then fromSlice 8 t.addr t.content else t.doubleVal)
  | _ => none

/-- `tfrecord.rs` 250-264. -/
def Dtype.leaf : Dtype → Option Leaf
  | .half => some .float16
  | .bfloat16 => some .bfloat16
  | .float => some .float32
  | .double => some .float64
  | .other => none

/-- `tfrecord.rs` 736-764.  Simplification: products of dimensions are not cut to 32 bits. -/
def valid (info : TypeInfo) (t : Tensor) : Bool :=
  match t.dims with
  | none => false
  | some dims => info.fsl == some (dims.foldl (· * ·) 1) && t.dtype.leaf == some info.leaf

/-- The tensors of one feature, checked (`tfrecord.rs` 637-639 and so on). -/
def tensorsValues (info : TypeInfo) : List Tensor → Option (List Nat)
  | [] => some []
  | t :: ts =>
    if valid info t then
      match tensorValues info.leaf t, tensorsValues info ts with
      | some a, some b => some (a ++ b)
      | _, _ => none
    else none

/-- `collect::<Result<Vec<_>>>`. -/
def decodeAll (d : Decoders) : List (List Nat) → Option (List Tensor)
  | [] => some []
  | b :: bs =>
    match d.tensor b, decodeAll d bs with
    | some t, some ts => some (t :: ts)
    | _, _ => none

/-- `tfrecord.rs` 603-731: the values of one feature of a tensor column; nulls if it is missing or of another kind. -/
def tensorFeature (d : Decoders) (info : TypeInfo) (size : Nat) : Option Feature → Option (List Cell)
  | some (.bytes values) =>
    match decodeAll d values with
    | none => none
    | some ts => (tensorsValues info ts).map (·.map Cell.float)
  | _ => some (List.replicate size .null)

/-- `tfrecord.rs` 447-534: the values of one feature of a column without tensors; a null if it is missing or of another kind and the column is no list. -/
def plainFeature (d : Decoders) (info : TypeInfo) (f : Option Feature) : Option (List Cell) :=
  let missing := if info.inList then [] else [Cell.null]
  match info.leaf, f with
  | .int64, some (.ints l) => some (l.map Cell.int)
  | .int64, _ => some missing
  | .float32, some (.floats l) => some (l.map Cell.float)
  | .float32, _ => some missing
  | .binary, some (.bytes l) => some (l.map Cell.bytes)
  | .binary, _ => some missing
  | .utf8, some (.bytes l) => some (l.map (fun b => Cell.bytes (d.utf8 b)))
  | .utf8, _ => some missing
  | _, _ => none

/-- The values of one feature. -/
def featureValues (d : Decoders) (info : TypeInfo) (f : Option Feature) : Option (List Cell) :=
  match info.fsl with
  | none => plainFeature d info f
  | some size => tensorFeature d info size f

/-- The values of all features, one after the other. -/
def leafValues (d : Decoders) (info : TypeInfo) : List (Option Feature) → Option (List Cell)
  | [] => some []
  | f :: fs =>
    match featureValues d info f, leafValues d info fs with
    | some a, some b => some (a ++ b)
    | _, _ => none

/-- `tfrecord.rs` 549-583: how many elements a feature has in a list; `unwrap` of the kind panics. -/
def elements (info : TypeInfo) : Option Feature → Option Nat
  | none => some 0
  | some .unset => none
  | some (.bytes l) => some (if info.fsl.isSome ∨ info.leaf = .binary ∨ info.leaf = .utf8 then l.length else 0)
  | some (.floats l) => some (if info.fsl.isNone ∧ info.leaf = .float32 then l.length else 0)
  | some (.ints l) => some (if info.fsl.isNone ∧ info.leaf = .int64 then l.length else 0)

/-- `tfrecord.rs` 545-589, as the length of each list instead of offsets. -/
def lengths (info : TypeInfo) : List (Option Feature) → Option (List Nat)
  | [] => some []
  | f :: fs =>
    match elements info f, lengths info fs with
    | some a, some b => some (a :: b)
    | _, _ => none

/-- `FixedSizeListArray::try_new` without nulls: as many lists as there are values for; with `fuel` at least the length. -/
def groupAux (size : Nat) : Nat → List Cell → List Cell
  | 0, _ => []
  | fuel + 1, l => if size = 0 ∨ l.length < size then [] else .list (l.take size) :: groupAux size fuel (l.drop size)

/-- `FixedSizeListArray::try_new`. -/
def group (size : Nat) (l : List Cell) : List Cell := groupAux size l.length l

/-- `ListArray::try_new`: the lists of the given lengths; an error if there are not enough values. -/
def split : List Nat → List Cell → Option (List Cell)
  | [], _ => some []
  | n :: ns, l =>
    if l.length < n then none
    else (split ns (l.drop n)).map (fun r => Cell.list (l.take n) :: r)

/-- `tfrecord.rs` 434-440: the feature of a name of each record; `unwrap` panics if a record has no features. -/
def features (name : Nat) : List Record → Option (List (Option Feature))
  | [] => some []
  | none :: _ => none
  | some fs :: rs => (features name rs).map (fun r => (fs.find? (fun p => p.1 == name)).map (·.2) :: r)

/-- `tfrecord.rs` 359-394. -/
def convertColumn (d : Decoders) (name : Nat) (info : TypeInfo) (records : List Record) : Option (List Cell) :=
  match features name records with
  | none => none
  | some fs =>
    match leafValues d info fs with
    | none => none
    | some values =>
      let column := match info.fsl with
        | none => values
        | some size => group size values
      if info.inList then
        match lengths info fs with
        | none => none
        | some ns => split ns column
      else some column

/-- The columns of some fields. -/
def convertColumns (d : Decoders) (records : List Record) : List (Nat × TypeInfo) → Option (List (List Cell))
  | [] => some []
  | (name, info) :: fields =>
    match convertColumn d name info records, convertColumns d records fields with
    | some c, some cs => some (c :: cs)
    | _, _ => none

/-- `tfrecord.rs` 345-356: `RecordBatch::try_new` gives an error if the columns do not have the same length (that of the first one), or if there are none. -/
def convertBatch (d : Decoders) (schema : List (Nat × TypeInfo)) (records : List Record) : Option (List (List Cell)) :=
  match convertColumns d records schema with
  | none => none
  | some [] => none
  | some (c :: cs) => if cs.all (fun c' => c'.length == c.length) then some (c :: cs) else none

/-- `try_chunks` (`tfrecord.rs` 139-146); with `fuel` at least the number of records. -/
def batchesAux (n : Nat) : Nat → List Record → List (List Record)
  | 0, _ => []
  | fuel + 1, l => if l.isEmpty then [] else l.take n :: batchesAux n fuel (l.drop n)

/-- The batches of `mapM` (none if any fails). -/
def convertAll (d : Decoders) (schema : List (Nat × TypeInfo)) : List (List Record) → Option (List (List (List Cell)))
  | [] => some []
  | b :: bs =>
    match convertBatch d schema b, convertAll d schema bs with
    | some a, some r => some (a :: r)
    | _, _ => none

/-- `tfrecord.rs` 121-152. -/
def readTfrecord (d : Decoders) (schema : List (Nat × TypeInfo)) (batchSize : Nat) (records : List Record) : Option (List (List (List Cell))) :=
  convertAll d schema (batchesAux batchSize records.length records)

/-! ## Inference of the schema, for features that are no tensors -/

/-- `tfrecord.rs` 155-161. -/
def repeated : Feature → Bool
  | .bytes l => decide (1 < l.length)
  | .floats l => decide (1 < l.length)
  | .ints l => decide (1 < l.length)
  | .unset => false

/-- `tfrecord.rs` 188-206, without tensors; `unwrap` of the kind panics. -/
def leafOf (isString : Bool) : Feature → Option Leaf
  | .bytes _ => some (if isString then .utf8 else .binary)
  | .floats _ => some .float32
  | .ints _ => some .int64
  | .unset => none

/-- `tfrecord.rs` 73-88 and 186-238 for one name: what is known of it after the first records; `none` inside is a name that was not met. -/
def inferFrom (isString : Bool) (name : Nat) : Option (Leaf × Bool) → List Record → Option (Option (Leaf × Bool))
  | known, [] => some known
  | known, none :: rs => inferFrom isString name known rs
  | known, some fs :: rs =>
    match (fs.find? (fun p => p.1 == name)).map (·.2) with
    | none => inferFrom isString name known rs
    | some f =>
      match leafOf isString f, known with
      | none, _ => none
      | some l, none => inferFrom isString name (some (l, repeated f)) rs
      | some l, some (k, r) => if k = l then inferFrom isString name (some (k, r || repeated f)) rs else none

/-- `tfrecord.rs` 60-112 for one name, with the number of rows that are read. -/
def infer (isString : Bool) (name : Nat) (numRows : Option Nat) (records : List Record) : Option (Option TypeInfo) :=
  (inferFrom isString name none (match numRows with | none => records | some n => records.take (max n 1))).map (·.map (fun p => ⟨p.1, none, p.2⟩))

end Verif.Tfrecord
