/-!
# Which column a field of a projection is read from

Models how the columns of a file get their numbers when it is written (`rust/lance-encoding/src/encoder.rs` 937-1380), how
a reader turns fields into numbers of columns (`ReaderProjection`, `rust/lance-file/src/v2/reader.rs` 160-290), and which
column the schedulers of the decoder take for which field (`rust/lance-encoding/src/decoder.rs` 403-1100).

Names of fields, nullability and the values are left out: a field is its id and its shape.
-/
namespace Verif.Proj

/-- The file versions with numbered columns (lance-encoding version.rs); everything from 2.1 on is "structural". -/
inductive Ver
  | v20
  | v21
  deriving DecidableEq, Repr

/-- The types of fields without children, as far as the decoders tell them apart: primitive types and fixed size lists of
    primitive types; `Utf8` and `Binary`; `LargeUtf8` and `LargeBinary`; dictionaries of primitive or binary values;
    fixed size lists of anything else (of another fixed size list, for instance). -/
inductive LeafTy
  | prim
  | bin
  | largeBin
  | dict
  | fslOther
  deriving DecidableEq, Repr

/-- The value of the metadata key `packed` of a struct: absent, `true`, `true` in other cases of letters (`True`), or
    anything else. -/
inductive PackVal
  | absent
  | exact
  | cased
  | other
  deriving DecidableEq, Repr

/-- A sequence of fields (lance-core datatypes/field.rs `Field`): each has an id; a list has one child; a struct has its
    `packed` metadata, whether it also has the key `lance-encoding:packed`, and its children.  A schema is such a sequence.
    Only structs have `packed` metadata here. -/
inductive Flds
  | nil
  | leaf (id : Nat) (t : LeafTy) (rest : Flds)
  | list (id : Nat) (child : Flds) (rest : Flds)
  | struct (id : Nat) (pv : PackVal) (newKey : Bool) (children : Flds) (rest : Flds)
  deriving DecidableEq, Repr

/-- The number of fields of a sequence (not of their children): `children.len()`. -/
def Flds.count : Flds → Nat
  | .nil => 0
  | .leaf _ _ r => r.count + 1
  | .list _ _ r => r.count + 1
  | .struct _ _ _ _ r => r.count + 1

/-- lance-core field.rs:877 (and lance-arrow schema.rs:86) `is_packed_struct`: the value, in lower case, is `true`. -/
def isPacked : PackVal → Bool
  | .exact => true
  | .cased => true
  | _ => false

/-- encoder.rs:1123-1129: the value is exactly `true`, or the key is absent and `lance-encoding:packed` is present.
    encoder.rs:1277: `is_packed_struct`. -/
def packedEnc (v : Ver) (pv : PackVal) (newKey : Bool) : Bool :=
  match v with
  | .v20 =>
    match pv with
    | .exact => true
    | .absent => newKey
    | _ => false
  | .v21 => isPacked pv

/-- What a column holds: values of a field without children, the offsets of a list, the header of a struct, or a packed
    struct. -/
inductive ColKind
  | values
  | offsets
  | header
  | packed
  deriving DecidableEq, Repr

/-- encoder.rs:1077-1190 `CoreFieldEncodingStrategy` (2.0) and 1239-1320 `StructuralEncodingStrategy` (2.1), called for each
    field by `BatchEncoder` (1344-1380): the fields that get a column, with what it holds, in the order in which
    `ColumnIndexSequence::next_column_index` (937-955) is called.  The n-th call returns n, so the number of a column is its
    position in this list.  Types that are refused when written are left out. -/
def encCols (v : Ver) : Flds → List (Nat × ColKind)
  | .nil => []
  | .leaf id _ r => (id, .values) :: encCols v r
  | .list id c r =>
    (match v with | .v20 => [(id, .offsets)] | .v21 => []) ++ encCols v c ++ encCols v r
  | .struct id pv nk c r =>
    if packedEnc v pv nk then (id, .packed) :: encCols v r
    else (match v with | .v20 => [(id, .header)] | .v21 => []) ++ encCols v c ++ encCols v r

/-- encoder.rs:945-954: the mapping of field ids to column numbers that the sequence of numbers keeps, and that the writer of
    a dataset stores in the data file (lance write.rs:477-497, fragment.rs:300-360). -/
def mapping (v : Ver) (f : Flds) : List (Nat × Nat) := ((encCols v f).map (·.1)).zipIdx

/-- The columns of a file with schema `f`. -/
def fileCols (v : Ver) (f : Flds) : List ColKind := (encCols v f).map (·.2)

/-- A field as the pre-order iteration of a schema shows it. -/
structure Node where
  id : Nat
  packed : Bool
  kids : Nat
  deriving DecidableEq, Repr

/-- lance-core schema.rs:31-60 `SchemaFieldIterPreOrder`, by recursion instead of with a stack. -/
def preOrder : Flds → List Node
  | .nil => []
  | .leaf id _ r => ⟨id, false, 0⟩ :: preOrder r
  | .list id c r => ⟨id, false, c.count⟩ :: (preOrder c ++ preOrder r)
  | .struct id pv _ c r => ⟨id, isPacked pv, c.count⟩ :: (preOrder c ++ preOrder r)

/-- schema.rs:297 `field_ids`. -/
def fieldIds (f : Flds) : List Nat := (preOrder f).map (·.id)

/-- reader.rs:246-262: the loop of `from_whole_schema` over the fields, with `packed_struct_fields_num` and
    `curr_column_idx`. -/
def wholeAux (v : Ver) : List Node → Nat → Nat → List Nat
  | [], _, _ => []
  | n :: ns, skip, cur =>
    if skip > 0 then wholeAux v ns (skip - 1) cur
    else if n.packed then cur :: wholeAux v ns n.kids (cur + 1)
    else if n.kids = 0 ∨ v = .v20 then cur :: wholeAux v ns 0 (cur + 1)
    else wholeAux v ns 0 cur

/-- reader.rs:237-267 `ReaderProjection::from_whole_schema`. -/
def fromWhole (v : Ver) (f : Flds) : List Nat := wholeAux v (preOrder f) 0 0

/-- A `BTreeMap` collected from pairs: the last pair of a key stays. -/
def lookup (m : List (Nat × Nat)) (id : Nat) : Option Nat := m.reverse.lookup id

/-- reader.rs:190-215 `from_field_ids_helper`; 2.0 looks up every field, 2.1 the fields without children; a field that is
    not in the map is passed over. -/
def fromIds (v : Ver) (m : List (Nat × Nat)) : Flds → List Nat
  | .nil => []
  | .leaf id _ r => (lookup m id).toList ++ fromIds v m r
  | .list id c r =>
    (if v = .v20 ∨ c.count = 0 then (lookup m id).toList else []) ++ fromIds v m c ++ fromIds v m r
  | .struct id _ _ c r =>
    (if v = .v20 ∨ c.count = 0 then (lookup m id).toList else []) ++ fromIds v m c ++ fromIds v m r

/-- reader.rs:275-290 `from_column_names`, where the projected schema is `p`: every field's position in the pre-order of the
    schema; `none` is the panic of indexing the map with an id it does not have. -/
def fromNames (f p : Flds) : Option (List Nat) :=
  (fieldIds p).mapM (fun id => lookup (fieldIds f).zipIdx id)

/-- lance fragment.rs:637-657 `create_fragment_from_file`, with fragment.rs:340-352 of the reader of a data file: the ids of
    the fields of the schema zipped with the columns of the projection of the whole schema. -/
def importMapping (v : Ver) (f : Flds) : List (Nat × Nat) := (fieldIds f).zip (fromWhole v f)

/-- Ways in which reading goes wrong. -/
inductive Fail
  | error
  | panic
  deriving DecidableEq, Repr

/-- decoder.rs:420-458 `expect_next` followed by `next_top_level`, on the rest of the column indices: the next index, if there
    is one and the file has that column. -/
def take1 (cols : List ColKind) : List Nat → Except Fail (Nat × ColKind × List Nat)
  | [] => .error .error
  | c :: cs =>
    match cols[c]? with
    | none => .error .error
    | some k => .ok (c, k, cs)

/-- Whether a decoder handles a type: decoder.rs:778-848 (2.1) has `todo!()` for all but primitive types, `Utf8` and `Binary`;
    850-978 (2.0) for fixed size lists of anything that is not primitive. -/
def canDecode : Ver → LeafTy → Bool
  | .v20, .fslOther => false
  | .v20, _ => true
  | .v21, .prim => true
  | .v21, .bin => true
  | .v21, _ => false

/-- decoder.rs:778-848 `create_structural_field_scheduler`, 850-978 `create_legacy_field_scheduler`, 686-735
    `create_list_scheduler`: the fields that are read from a column of their own, each with the number of its column; the
    state is the rest of the column indices.  2.0 decides by what is in the column whether a struct is packed, and panics if
    a struct's column is neither a header nor packed, or a list's column has no offsets.  (Both are looked at in the pages of
    the column; the file is taken to have rows.)  Blob columns are left out. -/
def decode (v : Ver) (cols : List ColKind) : Flds → List Nat → Except Fail (List (Nat × Nat) × List Nat)
  | .nil, is => .ok ([], is)
  | .leaf id t r, is =>
    if canDecode v t then do
      let (c, _, is) ← take1 cols is
      let (out, is) ← decode v cols r is
      .ok ((id, c) :: out, is)
    else .error .panic
  | .list id ch r, is =>
    match v with
    | .v20 => do
      let (c, k, is) ← take1 cols is
      let (a, is) ← decode v cols ch is
      if k = .offsets then do
        let (b, is) ← decode v cols r is
        .ok ((id, c) :: (a ++ b), is)
      else .error .panic
    | .v21 => do
      let (a, is) ← decode v cols ch is
      let (b, is) ← decode v cols r is
      .ok (a ++ b, is)
  | .struct id pv _ ch r, is =>
    match v with
    | .v20 => do
      let (c, k, is) ← take1 cols is
      match k with
      | .packed => do
        let (b, is) ← decode v cols r is
        .ok ((id, c) :: b, is)
      | .header => do
        let (a, is) ← decode v cols ch is
        let (b, is) ← decode v cols r is
        .ok ((id, c) :: (a ++ b), is)
      | _ => .error .panic
    | .v21 =>
      if isPacked pv then do
        let (c, _, is) ← take1 cols is
        let (b, is) ← decode v cols r is
        .ok ((id, c) :: b, is)
      else do
        let (a, is) ← decode v cols ch is
        let (b, is) ← decode v cols r is
        .ok (a ++ b, is)

/-- reader.rs:686-712 `validate_projection`. -/
def validate (cols : List ColKind) (p : Flds) (is : List Nat) : Bool :=
  decide (p ≠ .nil) && decide is.Nodup && is.all (fun i => decide (i < cols.length))

/-- decoder.rs:982-983: the pages of the made-up root column of a 2.0 file. -/
def rootPages (rows : Nat) : Nat := (rows + (2 ^ 32 - 1) - 1) / (2 ^ 32 - 1)

/-- Reading with a projection of fields `p` and column indices `is` from a file with columns `cols` and `rows > 0` rows:
    reader.rs:686-712, then decoder.rs:1035-1100 `DecodeBatchScheduler::try_new`; the result says which column each field is
    read from.  2.0 puts a root column in front and shifts the indices by one, which changes nothing else, and requires the
    root column to have one page (666-669).  2.1 takes the first index without looking whether there is one (411). -/
def openCols (v : Ver) (cols : List ColKind) (rows : Nat) (p : Flds) (is : List Nat) : Except Fail (List (Nat × Nat)) :=
  if validate cols p is then
    match v with
    | .v20 =>
      if cols = [] ∨ rootPages rows ≠ 1 then .error .panic
      else (decode v cols p is).map (·.1)
    | .v21 =>
      if cols = [] ∨ is = [] then .error .panic
      else (decode v cols p is).map (·.1)
  else .error .error

/-- lance-core field.rs:546-562 `project_by_ids` without `include_all_children` and schema.rs `project_by_ids`: the fields
    whose id is asked for or some of whose children stay; a field none of whose children are asked for keeps all of them. -/
def projectIds (ids : List Nat) : Flds → Flds
  | .nil => .nil
  | .leaf id t r => if id ∈ ids then .leaf id t (projectIds ids r) else projectIds ids r
  | .list id c r =>
    if projectIds ids c = .nil then
      (if id ∈ ids then .list id c (projectIds ids r) else projectIds ids r)
    else .list id (projectIds ids c) (projectIds ids r)
  | .struct id pv nk c r =>
    if projectIds ids c = .nil then
      (if id ∈ ids then .struct id pv nk c (projectIds ids r) else projectIds ids r)
    else .struct id pv nk (projectIds ids c) (projectIds ids r)

end Verif.Proj
