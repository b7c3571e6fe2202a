import Verif.Evolve.Tree
/-!
# Schema evolution

`add_columns`, `alter_columns`, `drop_columns` (`rust/lance/src/dataset/schema_evolution.rs`), appends with missing columns
(`write.rs`, `write/insert.rs`), and how a fragment whose columns are spread over several data files, or stored nowhere, is read
(`fragment.rs` 425-903 and 1958-2150), with the schema functions behind them (`rust/lance-core/src/datatypes/{schema,field}.rs`) and
the batch functions behind them (`rust/lance-arrow/src/lib.rs` 554-655).

Simplifications of the whole area:
* File formats: 0.1 ("legacy") and 2.0, where a data file lists the ids of all fields, parents included.  In 2.1 only leaves are listed.
* Names are numbers without dots; a path is a list of names.
* The cell of a list is one number for its offsets and validity, and the cell of a field inside a list is one number for the content of
  that list; null means that the list is null.  The validity of structs is not modelled: format 2.0 does not store it.
* Fixed size lists, dictionaries, maps, blobs and metadata of fields are not modelled.
* Ids are unbounded integers.
* Every error and every panic is `none`.
* A fragment is read as one batch.
-/
namespace Verif.Evolve

/-- A cell; `none` is null. -/
abbrev Cell := Option Int

/-- The logical type: a primitive type by number, `struct` or `list`. -/
inductive Kind where
  | leaf (t : Nat)
  | struct
  | list
deriving DecidableEq, Repr

/-- A field of a schema without its children (field.rs 120-137); id -1 is "not set". -/
structure Attr where
  name : Nat
  id : Int
  kind : Kind
  nullable : Bool
deriving DecidableEq, Repr

/-- A column of a batch without its children.  A struct has no cells of its own. -/
structure Col where
  name : Nat
  kind : Kind
  nullable : Bool
  vals : List Cell
deriving DecidableEq, Repr

/-- A record batch, or a table: the number of rows and the columns. -/
structure Data where
  n : Nat
  cols : Tr Col
deriving DecidableEq, Repr

/-- `Field::try_from(&ArrowField)`: no id yet (field.rs 876-919). -/
def Col.attr (c : Col) : Attr := ⟨c.name, -1, c.kind, c.nullable⟩

/-- The column of a field with the given cells. -/
def Attr.col (a : Attr) (vals : List Cell) : Col := ⟨a.name, a.kind, a.nullable, if a.kind = .struct then [] else vals⟩

/-- The ids, in pre-order (schema.rs 385-389 `field_ids`). -/
def ids (s : Tr Attr) : List Int := s.flat.map Attr.id

/-- The first field with a name: `fields.iter().find(|f| f.name == ..)` (schema.rs 359-365, field.rs 356-358). -/
def byName (x : Nat) (s : Tr Attr) : Option (Attr × Tr Attr) := s.find? (fun a => a.name == x)

/-- `StructArray::column_by_name`. -/
def colByName (x : Nat) (b : Tr Col) : Option (Col × Tr Col) := b.find? (fun c => c.name == x)

/-- The column at a path. -/
def colAt : List Nat → Tr Col → Option Col
  | [], _ => none
  | [x], b => (colByName x b).map Prod.fst
  | x :: y :: p, b =>
    match colByName x b with
    | none => none
    | some (_, k) => colAt (y :: p) k

/-! ### Schemas -/

/-- `Schema::field`, `Field::sub_field` (schema.rs 359-365, field.rs 463-473). -/
def fieldAt : List Nat → Tr Attr → Option (Attr × Tr Attr)
  | [], _ => none
  | [x], s => byName x s
  | x :: y :: p, s =>
    match byName x s with
    | none => none
    | some (_, k) => fieldAt (y :: p) k

/-- The children of `Field::project` (field.rs 475-506). -/
def projKids : List Nat → Tr Attr → Tr Attr
  | [], k => k
  | x :: p, k =>
    match byName x k with
    | none => .nil
    | some (a, kk) => .cons a (projKids p kk) .nil

/-- Change the first field with a name, `iter_mut().find(..)`; outer `none`: there is none. -/
def updFirst (p : Attr → Bool) (f : Attr → Tr Attr → Option (Tr Attr)) : Tr Attr → Option (Option (Tr Attr))
  | .nil => none
  | .cons a k r => if p a then some ((f a k).map (fun k' => .cons a k' r)) else (updFirst p f r).map (Option.map (fun r' => .cons a k r'))

/-- `Field::merge` of two fields by their kinds: structs and lists are merged below (`pos = true` for lists), others must be the same
(field.rs 767-807).  `k` are the children of the first field. -/
def mergeField (below : Bool → Option (Tr Attr)) (x y : Kind) (k : Tr Attr) : Option (Tr Attr) :=
  match x, y with
  | .struct, .struct => below false
  | .list, .list => below true
  | x, y => if x = y then some k else none

/-- The children of `Field::merge` for two structs (`pos = false`, by name) or two lists (`pos = true`, the items) (field.rs 767-807). -/
def mergeKids : Bool → Tr Attr → Tr Attr → Option (Tr Attr)
  | _, k, .nil => some k
  | pos, k, .cons o ok rest =>
    match updFirst (fun a => pos || a.name == o.name) (fun a ak => mergeField (fun pos => mergeKids pos ak ok) a.kind o.kind ak) k with
    | some none => none
    | some (some k') => if pos then some k' else mergeKids pos k' rest
    | none => if pos then none else mergeKids pos (k.append (.cons o ok .nil)) rest

/-- `Schema::project` (schema.rs 165-202).  The candidates are merged as the children of a struct are. -/
def project (s : Tr Attr) : List (List Nat) → Tr Attr → Option (Tr Attr)
  | [], acc => some acc
  | p :: ps, acc =>
    match p with
    | [] => none
    | x :: _ =>
      match byName x s with
      | none => none
      | some _ =>
        match mergeKids false acc (projKids p s) with
        | none => none
        | some acc' => project s ps acc'

/-- `Schema::exclude` (`top = true`: a list is dropped whole) and `Field::exclude` (schema.rs 334-357, field.rs 729-765). -/
def exclude : Bool → Tr Attr → Tr Attr → Tr Attr
  | _, .nil, _ => .nil
  | top, .cons a k rest, other =>
    match byName a.name other with
    | none => .cons a k (exclude top rest other)
    | some (_, ok) =>
      match a.kind, top with
      | .leaf _, _ => exclude top rest other
      | .list, true => exclude top rest other
      | _, _ =>
        match exclude false k ok with
        | .nil => exclude top rest other
        | k' => .cons a k' (exclude top rest other)

/-- `Schema::project_by_ids`, `Field::project_by_ids` (schema.rs 293-303, field.rs 552-569). -/
def projectByIds (l : List Int) (all : Bool) : Tr Attr → Tr Attr
  | .nil => .nil
  | .cons a k rest =>
    let k' := projectByIds l all k
    if l.contains a.id && (k' == .nil || all) then .cons a k (projectByIds l all rest)
    else if k' == .nil then projectByIds l all rest
    else .cons a k' (projectByIds l all rest)

/-- The Arrow type of a field without the field's own name and nullability: equal types have equal children, ids aside. -/
def tyEq (a : Attr) (k : Tr Attr) (b : Attr) (kb : Tr Attr) : Bool :=
  decide (a.kind = b.kind) && decide (k.map (fun x => { x with id := 0 }) = kb.map (fun x => { x with id := 0 }))

/-- `Field::do_intersection` of the children of two structs: types count below the top level, a child that does not fit is left out
(field.rs 661-716). -/
def interKids : Tr Attr → Tr Attr → Tr Attr
  | .nil, _ => .nil
  | .cons a k rest, other =>
    match byName a.name other with
    | none => interKids rest other
    | some (o, ok) =>
      if a.kind = .struct ∧ o.kind = .struct then .cons a (interKids k ok) (interKids rest other)
      else if tyEq a k o ok then .cons a k (interKids rest other)
      else interKids rest other

/-- `Schema::intersection_ignore_types`: in the order of `other` (schema.rs 266-286). -/
def interTop (proj : Tr Attr) : Tr Attr → Tr Attr
  | .nil => .nil
  | .cons o ok rest =>
    match byName o.name proj with
    | none => interTop proj rest
    | some (a, k) =>
      if a.kind = .struct ∧ o.kind = .struct then .cons a (interKids k ok) (interTop proj rest)
      else .cons a k (interTop proj rest)

/-- `Field::max_id`, `Schema::max_field_id`; -1 for no fields (field.rs 809-815, schema.rs 460-466). -/
def maxId (l : List Int) : Int := l.foldl max (-1)

/-- `Field::set_id` (field.rs 817-827). -/
def setIds : Int → Tr Attr → Int × Tr Attr
  | next, .nil => (next, .nil)
  | next, .cons a k rest =>
    let id := if a.id < 0 then next else a.id
    let next := if a.id < 0 then next + 1 else next
    let rk := setIds next k
    let rr := setIds rk.1 rest
    (rr.1, .cons { a with id := id } rk.2 rr.2)

/-- `Schema::set_field_id` (schema.rs 493-500). -/
def setFieldId (s : Tr Attr) (max_existing : Int) : Tr Attr := (setIds (max (maxId (ids s)) max_existing + 1) s).2

/-- `Schema::merge` with fields whose names are all new: their ids are reset and they are added at the end (schema.rs 523-559).  Fields
of the same name are merged there, which `check_names` excludes for the callers here. -/
def addFields (s : Tr Attr) : Tr Attr → Tr Attr
  | .nil => s
  | .cons a k rest =>
    if (byName a.name s).isSome then addFields s rest
    else addFields (s.append (.cons { a with id := -1 } (k.map (fun x => { x with id := -1 })) .nil)) rest

/-- `Schema::validate`: distinct names at the top level, all ids set and distinct (schema.rs 206-251). -/
def validate (s : Tr Attr) : Bool :=
  decide (s.roots.map (fun t => t.1.name)).Nodup && (ids s).all (fun i => decide (0 ≤ i)) && decide (ids s).Nodup

/-- No field of `d` is unexpected (schema.rs 627-639). -/
def noExtra (d e : Tr Attr) : Bool := d.roots.all (fun t => e.roots.any (fun u => u.1.name == t.1.name))

/-- `compare_fields` ignoring order and nullability, where nullable fields may be missing (schema.rs 621-673, field.rs 336-345).  Two
fields of `d` with the same name: the code takes the last. -/
def compatible (d : Tr Attr) : Tr Attr → Bool
  | .nil => true
  | .cons e ek rest =>
    (match byName e.name d with
      | some (a, k) => decide (a.kind = e.kind) && noExtra k ek && compatible k ek
      | none => e.nullable) && compatible d rest

/-- `Schema::project_by_schema` with errors on everything, `Field::project_by_field` (schema.rs 305-332, field.rs 571-642). -/
def projectBySchema (s : Tr Attr) : Tr Attr → Option (Tr Attr)
  | .nil => some .nil
  | .cons o ok rest =>
    match byName o.name s with
    | none => none
    | some (a, k) =>
      if a.kind = o.kind then
        match (if o.kind = .struct ∨ o.kind = .list then projectBySchema k ok else some k), projectBySchema s rest with
        | some k', some r => some (.cons a k' r)
        | _, _ => none
      else none

/-! ### Batches -/

/-- The cells of the given rows. -/
def pickVals (rows : List Nat) (vals : List Cell) : List Cell := rows.map (fun i => vals.getD i none)

/-- The columns restricted to the given rows (`take`, `filter`, `slice`). -/
def pickCols (rows : List Nat) (b : Tr Col) : Tr Col :=
  b.map (fun c => { c with vals := if c.kind = .struct then [] else pickVals rows c.vals })

def Data.pick (rows : List Nat) (d : Data) : Data := ⟨rows.length, pickCols rows d.cols⟩

/-- The rows of `n` that are not deleted. -/
def alive (n : Nat) (del : List Nat) : List Nat := (List.range n).filter (fun i => !del.contains i)

/-- One column, then another, row by row (`concat_batches`). -/
def catCols : Tr Col → Tr Col → Tr Col
  | .cons c k r, .cons d l s => .cons { c with vals := c.vals ++ d.vals } (catCols k l) (catCols r s)
  | _, _ => .nil

/-- The types and nullabilities of two columns agree (equality of Arrow types, as `StructArray::try_new` requires). -/
def sameType (a : Attr) (k : Tr Attr) (c : Col) (ck : Tr Col) : Bool := tyEq a k c.attr (ck.map Col.attr)

/-- No null where nulls are not allowed. -/
def nullOk (nullable : Bool) (vals : List Cell) : Bool := nullable || vals.all Option.isSome

/-- `lance_arrow::merge` (lib.rs 584-655), for batches of the same number of rows. -/
def mergeCols : Tr Col → Tr Col → Tr Col
  | .nil, r => r
  | .cons c k rest, r =>
    match colByName c.name r with
    | some (d, l) =>
      .cons c (if c.kind = .struct ∧ d.kind = .struct then mergeCols k l else k)
        (mergeCols rest (r.filterTop (fun d _ => d.name != c.name)))
    | none => .cons c k (mergeCols rest r)

/-- `lance_arrow::project` (lib.rs 554-582).  The struct is built without validity, so a null in a child that is not nullable is an error. -/
def projectCols : Tr Attr → Tr Col → Option (Tr Col)
  | .nil, _ => some .nil
  | .cons a k rest, b =>
    match colByName a.name b with
    | none => none
    | some (c, ck) =>
      let kids := if a.kind = .struct then (if c.kind = .struct then projectCols k ck else none)
        else if sameType a k c ck then some ck else none
      match kids, projectCols rest b with
      | some kids, some r => if nullOk a.nullable c.vals then some (.cons ⟨a.name, a.kind, a.nullable, c.vals⟩ kids r) else none
      | _, _ => none

/-! ### Data files and fragments -/

/-- A data file: the cells of each field by id.  A struct is listed without cells. -/
structure File where
  legacy : Bool
  rows : Nat
  cols : List (Int × List Cell)
deriving DecidableEq, Repr

/-- `DataFile::fields`. -/
def File.ids (f : File) : List Int := f.cols.map Prod.fst

def File.lookup (f : File) (i : Int) : Option (List Cell) := (f.cols.find? (fun c => c.1 == i)).map Prod.snd

/-- A fragment: its data files, `physical_rows` and the deletion vector. -/
structure Frag where
  files : List File
  phys : Nat
  del : List Nat
deriving DecidableEq, Repr

/-- `count_rows`: physical rows less the deleted ones (fragment.rs 905-960). -/
def Frag.live (fr : Frag) : Nat := fr.phys - fr.del.length

/-- A version of the dataset: storage format, schema and fragments. -/
structure Ds where
  legacy : Bool
  schema : Tr Attr
  frags : List Frag
deriving DecidableEq, Repr

/-- `Manifest::max_field_id` (manifest.rs 255-265). -/
def Ds.maxFieldId (d : Ds) : Int :=
  max (maxId (ids d.schema)) (maxId (d.frags.flatMap (fun fr => fr.files.flatMap File.ids)))

/-! ### Writing a data file -/

/-- The encoders of nested fields take the children in order (encoder.rs; struct and list encoders). -/
def storeKids : Tr Attr → Tr Col → List (Int × List Cell)
  | .cons a k r, .cons c ck cr => (a.id, c.vals) :: (storeKids k ck ++ storeKids r cr)
  | _, _ => []

/-- `encode_batch`: the columns of the top level by name (`rust/lance-file/src/v2/writer.rs` 306-340). -/
def storeTop : Tr Attr → Tr Col → Option (List (Int × List Cell))
  | .nil, _ => some []
  | .cons a k rest, b =>
    match colByName a.name b, storeTop rest b with
    | some (c, ck), some r => some ((a.id, c.vals) :: (storeKids k ck ++ r))
    | _, _ => none

/-- `verify_nullability_constraints`: the columns of the batch against the fields of the schema by position (writer.rs 238-262).
Simplified: the items of lists are not looked at. -/
def verifyNulls : Tr Attr → Tr Col → Bool
  | .cons a k r, .cons c ck cr =>
    nullOk a.nullable c.vals && (if a.kind = .struct then verifyNulls k ck else true) && verifyNulls r cr
  | _, _ => true

/-- Write one batch as a data file (writer.rs 238-340; `schema.validate()` 270).  The legacy writer is taken to do the same. -/
def writeFile (legacy : Bool) (s : Tr Attr) (b : Data) : Option File :=
  if validate s && verifyNulls s b.cols then (storeTop s b.cols).map (fun cols => ⟨legacy, b.n, cols⟩) else none

/-! ### Reading a fragment -/

/-- Decode the fields from a file; a field that the file does not have is an error (`reader.rs` 190-236), and so is a struct without
children (`children[0]` panics, `rust/lance-encoding/src/encodings/logical/struct.rs` 178-180). -/
def readCols (n : Nat) (f : File) : Tr Attr → Option (Tr Col)
  | .nil => some .nil
  | .cons a k rest =>
    if a.kind = .struct ∧ k = .nil then none else
      match f.lookup a.id, readCols n f k, readCols n f rest with
      | some v, some k', some r => some (.cons (a.col (v.take n)) k' r)
      | _, _, _ => none

/-- The fields a file contributes: those of the schema that it lists, less those not asked for (fragment.rs 782-800, `DataFile::schema`
in `rust/lance-table/src/format/fragment.rs` 94-96). -/
def perFile (s proj : Tr Attr) (f : File) : Tr Attr := interTop proj (projectByIds f.ids false s)

/-- `NullReader::batch` (fragment.rs 437-446): a column that is not nullable makes `RecordBatch::try_new(..).unwrap()` panic. -/
def nullBatch (s : Tr Attr) (n : Nat) : Option Data :=
  if s.roots.all (fun t => t.1.nullable || decide (n = 0)) then
    some ⟨n, s.map (fun a => a.col (List.replicate n none))⟩ else none

/-- The fields found in no file (fragment.rs 887-900). -/
def missingFields (s proj : Tr Attr) (fr : Frag) : Tr Attr :=
  let present := fr.files.flatMap (fun f => ids (perFile s proj f))
  projectByIds ((ids proj).filter (fun i => !present.contains i && decide (0 ≤ i))) true proj

/-- One file: how many rows are read and the batch; skipped if the file has none of the fields.  `all` is `read_all`, which reads all rows
of the file; otherwise the physical rows of the fragment are read, which fails if the file is shorter. -/
def readFile (all : Bool) (s proj : Tr Attr) (phys : Nat) (f : File) : Option (Option Data) :=
  match perFile s proj f with
  | .nil => some none
  | p =>
    let n := if all then f.rows else phys
    if n ≤ f.rows then (readCols n f p).map (fun c => some ⟨n, c⟩) else none

/-- `merge_streams`: batches of different sizes are an error (`rust/lance-table/src/utils/stream.rs` 60-115). -/
def mergeAll (d : Data) : List Data → Option Data
  | [] => some d
  | e :: es => if d.n = e.n then mergeAll ⟨d.n, mergeCols d.cols e.cols⟩ es else none

/-- `open_readers`, `FragmentReader::try_new` and `new_read_impl` (fragment.rs 869-903, 1713-1755, 1958-2040): the batches of the data
files and, for the fields in none, of the null reader are merged, deleted rows are taken out, and the columns are put in the order of the
projection.  `all = true` is `read_all`, where the null reader counts the rows that are not deleted (fragment.rs 885, 475-481);
`all = false` is a scan or a take, where it is given the range.  Simplified: a scan stops after the last row that is not deleted. -/
def readFrag (all : Bool) (s proj : Tr Attr) (fr : Frag) : Option Data :=
  match proj with
  | .nil => some ⟨(alive fr.phys fr.del).length, .nil⟩
  | _ =>
    match fr.files.mapM (readFile all s proj fr.phys) with
    | none => none
    | some rs =>
      let batches := rs.filterMap id
      let firstLegacy := (fr.files.find? (fun f => perFile s proj f != .nil)).any File.legacy
      let othersLegacy := (fr.files.filter (fun f => perFile s proj f != .nil)).all File.legacy
      let miss := missingFields s proj fr
      if firstLegacy && !(othersLegacy && miss == .nil) then none else
        let nulls := if miss == .nil then some [] else (nullBatch miss (if all then fr.live else fr.phys)).map (fun d => [d])
        match nulls with
        | none => none
        | some nulls =>
          match batches ++ nulls with
          | [] => none
          | d :: ds =>
            match mergeAll d ds with
            | none => none
            | some d =>
              let d := d.pick (alive d.n fr.del)
              (projectCols proj d.cols).map (fun c => ⟨d.n, c⟩)

/-- All fragments in order. -/
def readFrags (s proj : Tr Attr) : List Frag → Option Data
  | [] => some ⟨0, proj.map (fun a => a.col [])⟩
  | fr :: rest =>
    match readFrag false s proj fr, readFrags s proj rest with
    | some d, some e => some ⟨d.n + e.n, catCols d.cols e.cols⟩
    | _, _ => none

/-- Read the whole table. -/
def Ds.scan (d : Ds) : Option Data := readFrags d.schema d.schema d.frags

/-- Read chosen columns, as `take` does (`Schema::project`; dataset.rs 239-291). -/
def Ds.scanPaths (d : Ds) (paths : List (List Nat)) : Option Data :=
  match project d.schema paths .nil with
  | none => none
  | some p => readFrags d.schema p d.frags

end Verif.Evolve
