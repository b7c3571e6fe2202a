import Verif.ListCol.Model
import Verif.RowIds.Serde
/-! Model of the pages of a column in file version 2.0: the conversion of arrow arrays to data blocks
(`rust/lance-encoding/src/data.rs`), the choice of an encoder (`encoder.rs`), the physical encodings
(`encodings/physical/*.rs`: value, bitmap, basic, binary, dictionary, fixed size list, packed struct) and the decoding
of ranges of rows.

Bytes are `Nat`.  A file is a list of bytes.  A panic and an error are `none`.  Not modelled here: FSST, bit packing and
fixed size binary (only version 2.1 chooses them by itself), blobs, validation of the data. -/
namespace Verif.Phys
open Verif.ListCol (Rng slice)
open Verif.RowIds.Serde (leBytes fromLe)

/-! ## Types, arrays and blocks -/

/-- The arrow types, as far as the encoders tell them apart.  `prim w`: a type with `w` bytes for a value; `bin true`:
LargeUtf8, LargeBinary; `bin false`: Utf8, Binary; `dict w signed t`: a dictionary with keys of `w` bytes; `packed ws`: a
struct with the metadata `packed`, of fields that have `ws` bytes. -/
inductive Ty where
  | null
  | bool
  | prim (w : Nat)
  | bin (wide : Bool)
  | fsl (inner : Ty) (dim : Nat)
  | dict (w : Nat) (signed : Bool) (value : Ty)
  | packed (ws : List Nat)
deriving DecidableEq

/-- An arrow array.  `valid`: the null buffer.  The buffers are those of the slice that the array shows (arrow cuts them). -/
inductive Arr where
  | null (n : Nat)
  | bool (valid : Option (List Bool)) (bits : List Bool)
  | prim (valid : Option (List Bool)) (data : List Nat) (n : Nat)
  | bin (valid : Option (List Bool)) (offsets : List Nat) (data : List Nat)
  | fsl (valid : Option (List Bool)) (child : Arr) (n : Nat)
  | dict (valid : Option (List Bool)) (keys : List Nat) (values : Arr)
  | packed (valid : Option (List Bool)) (fields : List (Option (List Bool) × List Nat)) (n : Nat)

/-- data.rs:801-812 `DataBlock`, as far as version 2.0 makes them.  `bits`: a `FixedWidthDataBlock` with 1 bit for a
value; `fixed w data n`: one with `w` bytes; `dict w n indices items`. The widths of the fields of a struct are kept with
the fields. -/
inductive Block where
  | allNull (n : Nat)
  | nullable (nulls : List Bool) (data : Block)
  | bits (data : List Bool)
  | fixed (w : Nat) (data : List Nat) (n : Nat)
  | var (wide : Bool) (offsets : List Nat) (data : List Nat)
  | fsl (dim : Nat) (child : Block)
  | dict (w : Nat) (n : Nat) (indices : List Nat) (items : Block)
  | packed (fields : List (Nat × List Nat)) (n : Nat)

/-- A value that the user sees. -/
inductive Val where
  | null
  | bit (b : Bool)
  | bytes (l : List Nat)
  | list (l : List Val)

/-- `n` pieces of `d` elements. -/
def chunk {α : Type} (d n : Nat) (xs : List α) : List (List α) := (List.range n).map (fun i => slice xs (i * d, i * d + d))

/-- The strings between offsets. -/
def strs : List Nat → List Nat → List Val
  | a :: b :: os, data => .bytes (slice data (a, b)) :: strs (b :: os) data
  | _, _ => []

/-- A null buffer over values. -/
def mask (flags : List Bool) (vs : List Val) : List Val := List.zipWith (fun v x => if v then x else .null) flags vs

/-- data.rs:926-942 `num_values`. -/
def Block.numValues : Block → Nat
  | .allNull n => n
  | .nullable _ b => b.numValues
  | .bits bs => bs.length
  | .fixed _ _ n => n
  | .var _ os _ => os.length - 1
  | .fsl d c => c.numValues / d
  | .dict _ n _ _ => n
  | .packed _ n => n

/-- data.rs:816-835 `into_arrow` (without validation), then `make_array` and the values of the array.  The buffers are
read as the data type says, whatever the width of the block: a buffer that is too short is a panic.  Primitive.rs:2975-2990
moves the nulls of a dictionary from the items to the keys, which does not change the values. -/
def toArrow : Block → Ty → Option (List Val)
  | .allNull n, _ => some (List.replicate n .null)
  | .nullable nulls b, t => (toArrow b t).map (mask nulls)
  | .bits bs, .bool => some (bs.map .bit)
  | .fixed _ data n, .prim w => if data.length < n * w then none else some ((chunk w n data).map .bytes)
  | .var wide os data, .bin wide' => if wide = wide' then some (strs os data) else none
  | .fsl d child, .fsl inner _ => (toArrow child inner).map (fun vs => (chunk d (vs.length / d) vs).map .list)
  | .dict _ n idx items, .dict w _ vt =>
    match toArrow items vt with
    | none => none
    | some its => if idx.length < n * w then none else (chunk w n idx).mapM (fun b => its[fromLe b]?)
  | .packed fields n, .packed _ =>
    some ((List.range n).map (fun i => .list (fields.map (fun f => .bytes (slice f.2 (i * f.1, i * f.1 + f.1))))))
  | _, _ => none

/-! ## Arrays to blocks (data.rs) -/

/-- `array.len()`. -/
def Arr.len : Arr → Nat
  | .null n => n
  | .bool _ bs => bs.length
  | .prim _ _ n => n
  | .bin _ os _ => os.length - 1
  | .fsl _ _ n => n
  | .dict _ ks _ => ks.length
  | .packed _ _ n => n

/-- `array.logical_nulls()` (arrow): a key that points to a null item is null too. -/
def Arr.nulls : Arr → Option (List Bool)
  | .null n => some (List.replicate n false)
  | .bool v _ => v
  | .prim v _ _ => v
  | .bin v _ _ => v
  | .fsl v _ _ => v
  | .dict v ks values =>
    match values.nulls with
    | none => v
    | some f => some (List.zipWith (fun b k => b && f.getD k false) (v.getD (List.replicate ks.length true)) ks)
  | .packed v _ _ => v

/-- data.rs:1382-1386 `Nullability`. -/
inductive Nulls where
  | none
  | all
  | some (flags : List Bool)

/-- data.rs:1397-1425 `extract_nulls`. -/
def extractNulls (arrays : List Arr) (n : Nat) : Nulls :=
  if arrays.all (fun a => a.nulls.isNone) then .none
  else
    let flags := arrays.flatMap (fun a => a.nulls.getD (List.replicate a.len true))
    if flags.count false = n then .all else .some flags

/-- data.rs:1122-1161 `stitch_offsets`. -/
def stitch : List Nat → List (List Nat) → List Nat
  | dest, [] => dest
  | dest, o :: os => stitch (dest ++ (o.drop 1).map (fun x => x + dest.getLastD 0 - o.headD 0)) os

/-- `arr.to_data()`: offsets and bytes of a string array. -/
def Arr.strings : Arr → List Nat × List Nat
  | .bin _ os data => (os, data)
  | _ => ([], [])

/-- data.rs:1108-1116, 1163-1201 `arrow_binary_to_data_block` (an offset that does not fit in the offset type is not
modelled). -/
def binaryBlock (wide : Bool) (arrays : List Arr) : Block :=
  .var wide (stitch [0] (arrays.map (fun a => a.strings.1)))
    (arrays.flatMap (fun a => slice a.strings.2 (a.strings.1.headD 0, a.strings.1.getLastD 0)))

def Arr.bitData : Arr → List Bool
  | .bool _ bs => bs
  | _ => []

def Arr.byteData : Arr → List Nat
  | .prim _ data _ => data
  | _ => []

def Arr.child : Arr → Arr
  | .fsl _ c _ => c
  | _ => .null 0

def Arr.keys : Arr → List Nat
  | .dict _ ks _ => ks
  | _ => []

def Arr.values : Arr → Arr
  | .dict _ _ vs => vs
  | _ => .null 0

def Arr.fields : Arr → List (Option (List Bool) × List Nat)
  | .packed _ fs _ => fs
  | _ => []

/-- data.rs:1275-1287 `max_index_val`. -/
def maxIndexVal (w : Nat) (signed : Bool) : Nat := if signed then 2 ^ (8 * w - 1) - 1 else 256 ^ w - 1

/-- The keys of all arrays when the dictionaries are put one after the other. -/
def concatKeys : Nat → List Arr → List Nat
  | _, [] => []
  | off, a :: as => a.keys.map (· + off) ++ concatKeys (off + a.values.len) as

/-- data.rs:1234-1273 `concat_dict_arrays`: the width of the keys, and the keys.  Arrow's `concat` puts the dictionaries
one after the other and gives an error if their length does not fit in the key type (simplified: it may also merge equal
values); then the keys become u32. -/
def concatDicts (w : Nat) (signed : Bool) (arrays : List Arr) : Option (Nat × Nat × List Nat) :=
  let total := (arrays.map (fun a => a.values.len)).sum
  if arrays.length = 1 ∨ total ≤ maxIndexVal w signed then some (w, maxIndexVal w signed, concatKeys 0 arrays)
  else if total ≤ maxIndexVal 4 false then some (4, maxIndexVal 4 false, concatKeys 0 arrays)
  else none

/-- `new_null_array`. -/
def nullArr : Ty → Nat → Arr
  | .null, n => .null n
  | .bool, n => .bool (some (List.replicate n false)) (List.replicate n false)
  | .prim w, n => .prim (some (List.replicate n false)) (List.replicate (n * w) 0) n
  | .bin _, n => .bin (some (List.replicate n false)) (List.replicate (n + 1) 0) []
  | .fsl inner d, n => .fsl (some (List.replicate n false)) (nullArr inner (n * d)) n
  | .dict _ _ vt, n => .dict (some (List.replicate n false)) (List.replicate n 0) (nullArr vt 0)
  | .packed ws, n => .packed (some (List.replicate n false)) (ws.map (fun w => (none, List.replicate (n * w) 0))) n

/-- data.rs:1307-1380 `arrow_dictionary_to_data_block`: width of the indices, their bytes, and the arrays of the items. -/
def dictIndices (w : Nat) (signed : Bool) (vt : Ty) (arrays : List Arr) (validity : Option (List Bool)) :
    Option (Nat × List Nat × List Arr) :=
  match concatDicts w signed arrays with
  | none => none
  | some (w1, max1, keys) =>
    let values := arrays.map Arr.values
    match validity with
    | none => some (w1, keys.flatMap (leBytes w1), values)
    | some flags =>
      let vflags := values.flatMap (fun a => a.nulls.getD (List.replicate a.len true))
      match vflags.idxOf? false with
      | some i => some (w1, (List.zipWith (fun v k => if v then k else i) flags keys).flatMap (leBytes w1), values)
      | none =>
        let i := vflags.length
        if i ≤ max1 then
          some (w1, (List.zipWith (fun v k => if v then k else i) flags keys).flatMap (leBytes w1), values ++ [nullArr vt 1])
        else if 2 ^ 32 - 1 ≤ max1 then none
        else some (4, (List.zipWith (fun v k => if v then k else i) flags keys).flatMap (leBytes 4), values ++ [nullArr vt 1])

/-- data.rs:1427-1450, 1535-1545: the frame of `from_arrays`.  `body` makes the block of the values; a dictionary
(`isDict`) takes the nulls itself, for the other types they are put around the block. -/
def withNulls (isDict : Bool) (arrays : List Arr) (body : Option (List Bool) → Option Block) : Option Block :=
  let n := (arrays.map Arr.len).sum
  if n = 0 then some (.allNull 0)
  else
    match extractNulls arrays n with
    | .all => some (.allNull n)
    | .none => body none
    | .some flags => if isDict then body (some flags) else (body (some flags)).map (.nullable flags)

/-- data.rs:1427-1545 `from_arrays`.  Of a packed struct the fields must have no null buffer (else the encoder gives an
error, packed_struct.rs:206-225: put here). -/
def fromArrays : Ty → List Arr → Option Block
  | .null, arrays => withNulls false arrays (fun _ => some (.allNull (arrays.map Arr.len).sum))
  | .bool, arrays => withNulls false arrays (fun _ => some (.bits (arrays.flatMap Arr.bitData)))
  | .prim w, arrays =>
    withNulls false arrays (fun _ => some (.fixed w (arrays.flatMap Arr.byteData) (arrays.map Arr.len).sum))
  | .bin wide, arrays => withNulls false arrays (fun _ => some (binaryBlock wide arrays))
  | .fsl inner d, arrays => withNulls false arrays (fun _ => (fromArrays inner (arrays.map Arr.child)).map (.fsl d))
  | .dict w signed vt, arrays =>
    withNulls true arrays (fun validity =>
      match dictIndices w signed vt arrays validity with
      | none => none
      | some (w', idx, values) => (fromArrays vt values).map (.dict w' (arrays.map Arr.len).sum idx))
  | .packed ws, arrays =>
    withNulls false arrays (fun _ =>
      if arrays.any (fun a => a.fields.any (fun f => f.1.isSome)) then none
      else some (.packed ((List.range ws.length).map
        (fun i => (ws.getD i 0, arrays.flatMap (fun a => (a.fields.getD i (none, [])).2)))) (arrays.map Arr.len).sum))

/-! ## Encoding -/

/-- The encoders of version 2.0. -/
inductive Encoder where
  | value
  | basic (values : Encoder)
  | fsl (items : Encoder) (dim : Nat)
  | binary (compress : Bool)
  | dictionary
  | already (items : Encoder)
  | packed

/-- encoder.rs:497-618 `choose_array_encoder` for version 2.0. The keys of a dictionary get a basic value encoder. -/
def chooseEncoder (useDict compress : Bool) : Ty → Encoder
  | .fsl inner d => .basic (.fsl (chooseEncoder useDict false inner) d)
  | .dict _ _ vt => .already (chooseEncoder false false vt)
  | .bin _ => if useDict then .dictionary else .binary compress
  | .packed _ => .packed
  | _ => .basic .value

/-- encoder.rs:773-797 `create_array_encoder`: only Utf8 is dictionary encoded, if its estimated cardinality is low
(`lowCard` stands for the outcome of the estimate; Binary has the same type here and is never chosen by the code). -/
def createEncoder (lowCard compress : Bool) (t : Ty) : Encoder :=
  chooseEncoder (lowCard && decide (t = .bin false)) compress t

/-- pb::ArrayEncoding. -/
inductive Enc where
  | flat (bits buf : Nat) (compressed : Bool)
  | noNulls (values : Enc)
  | someNulls (validity values : Enc)
  | allNulls
  | fsl (dim : Nat) (items : Enc)
  | binary (indices bytes : Enc) (adj : Nat)
  | dict (indices items : Enc) (n : Nat)
  | packed (buf : Nat)

/-- A general compressor (zstd), of which only the round trip is used. -/
structure Codec where
  comp : List Nat → List Nat
  decomp : List Nat → Option (List Nat)

/-- Ends of the strings, counted from 0 (binary.rs:409-424). -/
def lengthsSum : Nat → List Nat → List Nat
  | last, a :: b :: os => (last + (b - a)) :: lengthsSum (last + (b - a)) (b :: os)
  | _, _ => []

/-- binary.rs:401-463 `get_indices_from_string_arrays` (the assertion that there are fewer than 2^63 bytes is left out). -/
def getIndices (offsets : List Nat) (nulls : Option (List Bool)) : List Nat × Nat :=
  let indices := lengthsSum 0 offsets
  if indices.isEmpty then ([], 0)
  else
    let adj := indices.getLastD 0 + 1
    match nulls with
    | none => (indices, adj)
    | some f => (List.zipWith (fun i v => if v then i else i + adj) indices f, adj)

/-- binary.rs:465-529 `BinaryEncoder::encode`; binary.rs:374-393 for a block of nulls.  The indices are encoded by a basic
value encoder. -/
def encodeBinary (c : Codec) (compress : Bool) (b : Block) (k : Nat) : Option (Block × Enc × Nat) :=
  let parts : Option (List Nat × List Nat × Option (List Bool)) :=
    match b with
    | .nullable nulls (.var _ os data) => some (os, data, some nulls)
    | .var _ os data => some (os, data, none)
    | .allNull n => some (List.replicate (n + 1) 0, [], some (List.replicate n false))
    | _ => none
  parts.map (fun p =>
    let ia := getIndices p.1 p.2.2
    (.var true ia.1 (if compress then c.comp p.2.1 else p.2.1),
      .binary (.noNulls (.flat 64 k false)) (.flat 8 (k + 1) compress) ia.2, k + 2))

/-- The state of `encode_dict_indices_and_items`. -/
structure DictSt where
  map : List (List Nat × Nat)
  cur : Nat
  idx : List Nat
  dict : List (List Nat)

/-- dictionary.rs:321-337: one string.  `curr_dict_index` is a u8; in a release build it wraps. -/
def DictSt.step (s : DictSt) (x : Option (List Nat)) : DictSt :=
  match x with
  | none => { s with idx := s.idx ++ [0] }
  | some st =>
    match s.map.lookup st with
    | some e =>
      if e = s.cur then ⟨s.map, (s.cur + 1) % 256, s.idx ++ [e], s.dict ++ [st]⟩ else { s with idx := s.idx ++ [e] }
    | none => ⟨(st, s.cur) :: s.map, (s.cur + 1) % 256, s.idx ++ [s.cur], s.dict ++ [st]⟩

/-- A string array (`StringBuilder`). -/
def strArr (xs : List (Option (List Nat))) : Arr :=
  .bin (if xs.all Option.isSome then none else some (xs.map Option.isSome))
    (xs.foldl (fun acc x => acc ++ [acc.getLastD 0 + (x.getD []).length]) [0]) (xs.flatMap (fun x => x.getD []))

/-- dictionary.rs:310-354 `encode_dict_indices_and_items`. -/
def encodeDict (xs : List (Option (List Nat))) : List Nat × Arr :=
  let s := xs.foldl DictSt.step ⟨[], 1, [], []⟩
  (s.idx, if s.dict.isEmpty then strArr [none] else strArr (s.dict.map some))

/-- The string of a value. -/
def Val.str : Val → Option (List Nat)
  | .bytes l => some l
  | _ => none

/-- buffer.rs:307-338 `zip_into_one`: the fields of each row. -/
def zipInto (fields : List (Nat × List Nat)) (n : Nat) : List Nat :=
  (List.range n).flatMap (fun i => fields.flatMap (fun f => slice f.2 (i * f.1, i * f.1 + f.1)))

/-- The `encode` methods: value.rs:317-344, basic.rs:190-236, fixed_size_list.rs:103-127, binary.rs:465-529,
dictionary.rs:232-290 and 356-401, packed_struct.rs:172-262.  `k`: the index of the next buffer. -/
def encode (c : Codec) : Encoder → Block → Ty → Nat → Option (Block × Enc × Nat)
  | .value, b, _, k =>
    match b with
    | .bits _ => some (b, .flat 1 k false, k + 1)
    | .fixed w _ _ => some (b, .flat (8 * w) k false, k + 1)
    | _ => none
  | .basic e, b, t, k =>
    match b with
    | .allNull _ => some (b, .allNulls, k)
    | .nullable nulls d =>
      (encode c e d t (k + 1)).map (fun x => (.nullable nulls x.1, .someNulls (.flat 1 k false) x.2.1, x.2.2))
    | _ => (encode c e b t k).map (fun x => (x.1, .noNulls x.2.1, x.2.2))
  | .fsl e d, b, t, k =>
    match b, t with
    | .fsl _ child, .fsl inner _ => (encode c e child inner k).map (fun x => (.fsl d x.1, .fsl d x.2.1, x.2.2))
    | _, _ => none
  | .binary compress, b, _, k => encodeBinary c compress b k
  | .dictionary, b, t, k =>
    if t = .bin false then
      match toArrow b t with
      | none => none
      | some [] => none
      | some vs =>
        let x := encodeDict (vs.map Val.str)
        match fromArrays (.bin false) [x.2] with
        | none => none
        | some items =>
          (encodeBinary c false items (k + 1)).map (fun y =>
            (.dict 1 x.1.length x.1 y.1, .dict (.noNulls (.flat 8 k false)) y.2.1 x.2.len, y.2.2))
    else none
  | .already e, b, t, k =>
    match t with
    | .dict w _ vt =>
      match b with
      | .dict w' n idx items =>
        (encode c e items vt (k + 1)).map (fun y =>
          (.dict w' n idx y.1, .dict (.noNulls (.flat (8 * w') k false)) y.2.1 items.numValues, y.2.2))
      | .allNull n =>
        (encode c e (.allNull 1) vt (k + 1)).map (fun y =>
          (.dict w n ((List.replicate n 0).flatMap (leBytes w)) y.1, .dict (.noNulls (.flat (8 * w) k false)) y.2.1 1, y.2.2))
      | _ => none
    | _ => none
  | .packed, b, _, k =>
    match b with
    | .packed [] _ => none
    | .packed fields n => some (.fixed (fields.map (·.1)).sum (zipInto fields n) n, .packed k, k + 1)
    | _ => none

/-- 8 bits to a byte, the first bit lowest. -/
def byteOf : List Bool → Nat
  | [] => 0
  | b :: bs => (if b then 1 else 0) + 2 * byteOf bs

/-- An arrow bitmap. -/
def packBits (bs : List Bool) : List Nat :=
  (List.range ((bs.length + 7) / 8)).map (fun i => byteOf (slice bs (8 * i, 8 * i + 8)))

/-- data.rs:837-849 `into_buffers`. -/
def Block.buffers : Block → List (List Nat)
  | .allNull _ => []
  | .nullable nulls b => packBits nulls :: b.buffers
  | .bits bs => [packBits bs]
  | .fixed _ data _ => [data]
  | .var wide os data => [os.flatMap (leBytes (if wide then 8 else 4)), data]
  | .fsl _ child => child.buffers
  | .dict _ _ idx items => idx :: items.buffers
  | .packed fields _ => fields.map (·.2)

/-- primitive.rs:3361-3384 `create_encode_task`: the buffers of the page and its description. -/
def writePage (c : Codec) (lowCard compress : Bool) (t : Ty) (arrays : List Arr) : Option (List (List Nat) × Enc) :=
  match fromArrays t arrays with
  | none => none
  | some b => (encode c (createEncoder lowCard compress t) b t 0).map (fun x => (x.1.buffers, x.2.1))

/-! ## Scheduling -/

/-- The page schedulers. -/
inductive Sched where
  | bitmap (offset : Nat)
  | value (w offset size : Nat) (compressed : Bool)
  | basicNone (values : Sched)
  | basicSome (validity values : Sched)
  | basicAll
  | fsl (items : Sched) (dim : Nat)
  | binary (indices bytes : Sched) (wide : Bool) (adj : Nat)
  | dict (indices items : Sched) (n : Nat) (decode : Bool)
  | packed (ws : List Nat) (offset : Nat)

/-- physical.rs:224-227: the offset type is taken from the data type. -/
def wideOf : Ty → Bool
  | .bin true => true
  | _ => false

/-- physical.rs:254: are the indices to be replaced by the items? -/
def isDict : Ty → Bool
  | .dict .. => true
  | _ => false

/-- physical.rs:164-296 `decoder_from_array_encoding`; 58-99 `get_buffer_decoder`.  `bufs`: positions and sizes.  The data
type is that of the column for all parts, also for the items of a fixed size list and of a dictionary. -/
def mkSched (bufs : List Rng) (t : Ty) : Enc → Option Sched
  | .flat bits k compressed =>
    match bufs[k]? with
    | none => none
    | some p => if bits = 1 then some (.bitmap p.1) else if bits % 8 ≠ 0 then none else some (.value (bits / 8) p.1 p.2 compressed)
  | .noNulls e => (mkSched bufs t e).map .basicNone
  | .someNulls v e =>
    match mkSched bufs t v, mkSched bufs t e with
    | some a, some b => some (.basicSome a b)
    | _, _ => none
  | .allNulls => some .basicAll
  | .fsl d e => (mkSched bufs t e).map (.fsl · d)
  | .binary i b adj =>
    match mkSched bufs t i, mkSched bufs t b with
    | some x, some y => some (.binary x y (wideOf t) adj)
    | _, _ => none
  | .dict i e n =>
    match mkSched bufs t i, mkSched bufs t e with
    | some x, some y => some (.dict x y n (!isDict t))
    | _, _ => none
  | .packed k =>
    match bufs[k]?, t with
    | some p, .packed ws => some (.packed ws p.1)
    | _, _ => none

/-- The page decoders. -/
inductive Dec where
  | bitmap (chunks : List (List Nat × Nat × Nat))
  | value (w : Nat) (data : List (List Nat)) (ranges : List Rng)
  | basicNone (values : Dec)
  | basicSome (validity values : Dec)
  | basicAll
  | fsl (items : Dec) (dim : Nat)
  | binary (indices : List Nat) (validity : List Bool) (wide : Bool) (bytes : Dec)
  | dictDirect (items : Block) (indices : Dec)
  | dictDecode (items : List (Option (List Nat))) (indices : Dec)
  | packed (ws : List Nat) (data : List Nat)

/-- Bit `i` of a bitmap. -/
def bitAt (data : List Nat) (i : Nat) : Bool := (data.getD (i / 8) 0).testBit (i % 8)

/-- `append_packed_range`: bits that are not there are a panic. -/
def bitsOf (data : List Nat) (start len : Nat) : Option (List Bool) :=
  if start + len ≤ 8 * data.length then some ((List.range len).map (fun i => bitAt data (start + i))) else none

/-- bitmap.rs:98-117 `BitmapDecoder::decode`. -/
def decodeBitmap : List (List Nat × Nat × Nat) → Nat → Nat → Option (List Bool)
  | [], _, _ => some []
  | (data, bitOffset, len) :: cs, skip, remaining =>
    if len ≤ skip then decodeBitmap cs (skip - len) remaining
    else
      let take := min remaining len
      match bitsOf data (skip + bitOffset) take, decodeBitmap cs 0 (remaining - take) with
      | some a, some b => some (a ++ b)
      | _, _ => none

/-- value.rs:167-201 `decode_buffers`. -/
def decodeBuffers : List (List Nat) → Nat → Nat → Option (List Nat) → List Nat
  | [], _, _, dest => dest.getD []
  | b :: bs, skip, take, dest =>
    if skip > b.length then decodeBuffers bs (skip - b.length) take dest
    else
      let here := min (b.length - skip) take
      let s := slice b (skip, skip + here)
      match dest, take - here with
      | none, 0 => s
      | none, left => decodeBuffers bs 0 left (some s)
      | some d, left => decodeBuffers bs 0 left (some (d ++ s))

/-- value.rs:138-153 `decompress`. -/
def decompress (c : Codec) (data : List (List Nat)) (ranges : List Rng) : Option (List (List Nat)) :=
  match c.decomp (data.headD []) with
  | none => none
  | some u => ranges.mapM (fun r => if r.2 ≤ u.length then some (slice u r) else none)

/-- value.rs:205-224 `ValuePageDecoder::decode`. -/
def decodeValue (c : Codec) (w : Nat) (data : List (List Nat)) (ranges : List Rng) (skip num : Nat) : Option Block :=
  if ranges.isEmpty then some (.fixed w (decodeBuffers data (skip * w) (num * w) none) num)
  else (decompress c data ranges).map (fun bs => .fixed w (decodeBuffers bs (skip * w) (num * w) none) num)

/-- The strings of a list as a block (the result of arrow's cast of a dictionary array to Utf8). -/
def strBlock (xs : List (Option (List Nat))) : Block :=
  .nullable (xs.map Option.isSome)
    (.var false (xs.foldl (fun acc x => acc ++ [acc.getLastD 0 + (x.getD []).length]) [0]) (xs.flatMap (fun x => x.getD [])))

/-- The `decode` methods: bitmap.rs:98-126, value.rs:205-224, basic.rs:159-177, fixed_size_list.rs:77-86,
binary.rs:276-351, dictionary.rs:145-156 and 165-210, packed_struct.rs:111-158. -/
def decode (c : Codec) : Dec → Nat → Nat → Option Block
  | .bitmap chunks, skip, num => (decodeBitmap chunks skip num).map .bits
  | .value w data ranges, skip, num => decodeValue c w data ranges skip num
  | .basicNone d, skip, num => decode c d skip num
  | .basicSome v d, skip, num =>
    match decode c v skip num, decode c d skip num with
    | some (.bits bs), some b => some (.nullable bs b)
    | _, _ => none
  | .basicAll, _, num => some (.allNull num)
  | .fsl d dim, skip, num => (decode c d (skip * dim) (num * dim)).map (.fsl dim)
  | .binary indices validity wide bytes, skip, num =>
    if skip + num ≤ validity.length ∧ skip + num + 1 ≤ indices.length then
      let os := slice indices (skip, skip + num + 1)
      let start := indices.getD skip 0
      match decode c bytes start (indices.getD (skip + num) 0 - start) with
      | some (.fixed _ data _) =>
        let b := Block.var wide (os.map (· - start)) data
        let flags := slice validity (skip, skip + num)
        some (if flags.all id then b else .nullable flags b)
      | _ => none
    else none
  | .dictDirect items ind, skip, num =>
    match decode c ind skip num with
    | some (.fixed w data n) => some (.dict w n data items)
    | _ => none
  | .dictDecode items ind, skip, num =>
    match (decode c ind skip num).bind (toArrow · (.prim 1)) with
    | some keys =>
      (keys.mapM (fun v =>
        let k := fromLe (v.str.getD [])
        if k = 0 then some none else items[k - 1]?)).map strBlock
    | none => none
  | .packed ws data, skip, num =>
    let total := ws.sum
    if (skip + num) * total ≤ data.length then
      some (.packed ((List.range ws.length).map (fun j => (ws.getD j 0,
        (List.range num).flatMap (fun i =>
          let a := skip * total + (ws.take j).sum + i * total
          slice data (a, a + ws.getD j 0))))) num)
    else none

/-- binary.rs:62-68 `normalize`. -/
def normalize (adj v : Nat) : Bool × Nat := if v ≥ adj then (false, v - adj) else (true, v)

/-- binary.rs:78-86: the loop of `extend`.  `val - prev` must not be negative. -/
def extendLoop (adj : Nat) : Nat → Nat → List Nat → Option (List Nat × List Bool)
  | _, _, [] => some ([], [])
  | prev, last, x :: xs =>
    let nv := normalize adj x
    if nv.2 < prev then none
    else
      let next := nv.2 - prev + last
      (extendLoop adj nv.2 next xs).map (fun r => (next :: r.1, nv.1 :: r.2))

/-- binary.rs:70-87 `extend`: what is added to the indices and to the validity. -/
def extend (adj : Nat) (indices cur : List Nat) (isStart : Bool) : Option (List Nat × List Bool) :=
  match cur with
  | [] => none
  | x :: xs =>
    let nv := normalize adj x
    let last := indices.getLastD 0
    if isStart then (extendLoop adj nv.2 (last + nv.2) xs).map (fun r => (nv.2 :: r.1, nv.1 :: r.2))
    else extendLoop adj nv.2 last xs

/-- binary.rs:184-218: the loop over the ranges.  `cur`: `curr_offset_index`. -/
def binaryLoop (adj : Nat) (decoded : List Nat) :
    List Rng → Nat → List Nat → List Bool → List Rng → Option (List Nat × List Bool × List Rng)
  | [], _, indices, validity, bytes => some (indices, validity, bytes)
  | r :: rs, cur, indices, validity, bytes =>
    let len := r.2 - r.1
    let here : Rng := if r.1 = 0 then (0, len) else (cur, cur + len + 1)
    if here.2 ≤ decoded.length then
      let xs := slice decoded here
      let cur' := if r.1 = 0 then len else cur + len + 1
      match xs.getLast?, extend adj indices xs (decide (r.1 = 0)) with
      | some l, some (is, vs) =>
        let first := if r.1 = 0 then 0 else (normalize adj (xs.headD 0)).2
        let last := (normalize adj l).2
        binaryLoop adj decoded rs cur' (indices ++ is) (validity ++ vs)
          (if first ≠ last then bytes ++ [(first, last)] else bytes)
      | _, _ => none
    else none

/-- Values of 8 bytes. -/
def u64s : Block → Option (List Nat)
  | .fixed 8 data n => if data.length < n * 8 then none else some ((chunk 8 n data).map fromLe)
  | _ => none

/-- The `schedule_ranges` methods: bitmap.rs:36-84, value.rs:62-126, basic.rs:110-151, fixed_size_list.rs:38-68,
binary.rs:134-253, dictionary.rs:62-136, packed_struct.rs:53-101.  A request for bytes gives the bytes of the file (a
request is in the file). -/
def schedule (c : Codec) (file : List Nat) : Sched → List Rng → Option Dec
  | .bitmap off, ranges =>
    some (.bitmap (ranges.map (fun r => (slice file (off + r.1 / 8, off + (r.2 + 7) / 8), r.1 % 8, r.2 - r.1))))
  | .value w off size compressed, ranges =>
    if compressed then some (.value w [slice file (off, off + size)] (ranges.map (fun r => (r.1 * w, r.2 * w))))
    else some (.value w (ranges.map (fun r => slice file (off + r.1 * w, off + r.2 * w))) [])
  | .basicNone s, ranges => (schedule c file s ranges).map .basicNone
  | .basicSome v s, ranges =>
    match schedule c file v ranges, schedule c file s ranges with
    | some a, some b => some (.basicSome a b)
    | _, _ => none
  | .basicAll, _ => some .basicAll
  | .fsl s d, ranges => (schedule c file s (ranges.map (fun r => (r.1 * d, r.2 * d)))).map (.fsl · d)
  | .binary i b wide adj, ranges =>
    let ir := ranges.map (fun r => if r.1 = 0 then (0, r.2) else (r.1 - 1, r.2))
    match schedule c file i ir with
    | none => none
    | some di =>
      match (decode c di 0 (ir.map (fun r => r.2 - r.1)).sum).bind u64s with
      | none => none
      | some decoded =>
        match binaryLoop adj decoded ranges 0 [0] [] [] with
        | none => none
        | some (indices, validity, bytes) => (schedule c file b bytes).map (.binary indices validity wide)
  | .dict i s n dec, ranges =>
    match schedule c file i ranges, schedule c file s [(0, n)] with
    | some di, some ds =>
      match decode c ds 0 n with
      | none => none
      | some items =>
        if dec then (toArrow items (.bin false)).map (fun vs => .dictDecode (vs.map Val.str) di)
        else some (.dictDirect items di)
    | _, _ => none
  | .packed ws off, ranges =>
    some (.packed ws (ranges.flatMap (fun r => slice file (off + r.1 * ws.sum, off + r.2 * ws.sum))))

/-- decoder.rs:631-642 `is_primitive`. -/
def isPrimitive : Ty → Bool
  | .null | .bool | .prim _ => true
  | .fsl inner _ => isPrimitive inner
  | _ => false

/-- decoder.rs:850-980 `create_legacy_field_scheduler`: the columns that are given to a primitive field scheduler; the
others end in `todo!` or an error (lists and structs are logical columns, not pages of this kind). -/
def readable : Ty → Bool
  | .bin _ => true
  | .dict _ _ vt => isPrimitive vt || (match vt with | .bin _ => true | _ => false)
  | .packed _ => true
  | t => isPrimitive t

/-- primitive.rs:3013-3038 `drain`, 2962-2967 `decode`: batch after batch. -/
def drains (c : Codec) (d : Dec) (t : Ty) : Nat → List Nat → Option (List (List Val))
  | _, [] => some []
  | skip, n :: ns =>
    match (decode c d skip n).bind (toArrow · t), drains c d t (skip + n) ns with
    | some vs, some rest => some (vs :: rest)
    | _, _ => none

/-- Reading of a page: the ranges are scheduled and the rows are decoded in batches. -/
def readPage (c : Codec) (file : List Nat) (bufs : List Rng) (e : Enc) (t : Ty) (ranges : List Rng) (batches : List Nat) :
    Option (List (List Val)) :=
  if readable t then
    match (mkSched bufs t e).bind (schedule c file · ranges) with
    | none => none
    | some d => drains c d t 0 batches
  else none

end Verif.Phys
