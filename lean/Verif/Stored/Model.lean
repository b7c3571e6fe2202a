/-!
# The stored form of schemas, fragments, indices, transactions and manifests

Sources: rust/lance-file/src/datatypes.rs, rust/lance-table/src/format/{fragment,index,manifest}.rs,
rust/lance-table/src/format.rs, rust/lance/src/dataset/transaction.rs:1164-1660.

What is modelled is the conversion between the in-memory structures and the protobuf messages.  The
protobuf wire format (`encode_to_vec` / `decode`, crate `prost`) and the byte form of a roaring bitmap
are trusted to be lossless.  `usize` is 64 bits wide.  A Rust `String` is valid UTF-8, so `into_bytes`
followed by `from_utf8_lossy` is the identity.
-/
namespace Verif.Stored

/-- Ways in which reading back fails; `panic` is an `unwrap` on `None` or an explicit `panic!`. -/
inductive Err | notSupported | missing | malformed | internal | invalid | panic
deriving DecidableEq, Repr

/-- `.into_iter().map(f).collect::<Result<Vec<_>>>()`. -/
def mapE {α β : Type} (f : α → Except Err β) : List α → Except Err (List β)
  | [] => .ok []
  | x :: xs =>
    match f x with
    | .error e => .error e
    | .ok y =>
      match mapE f xs with
      | .error e => .error e
      | .ok ys => .ok (y :: ys)

/-- `.map(f).transpose()?` on an `Option`. -/
def optE {α β : Type} (f : α → Except Err β) : Option α → Except Err (Option β)
  | none => .ok none
  | some x =>
    match f x with
    | .error e => .error e
    | .ok y => .ok (some y)

/-- `HashMap<String, String>`: entries with pairwise distinct keys. -/
abbrev Md := List (String × String)

/-- `HashMap::get`. -/
def Md.get (m : Md) (k : String) : Option String := (m.find? (fun e => e.1 == k)).map (·.2)

/-- `HashMap::insert`. -/
def Md.insert (k v : String) : Md → Md
  | [] => [(k, v)]
  | (k', v') :: r => if k' = k then (k, v) :: r else (k', v') :: Md.insert k v r

/-! ## Schema -/

/-- rust/lance-core/src/datatypes.rs `Encoding`. -/
inductive Enc | plain | varBinary | dictionary | rle
deriving DecidableEq, Repr

/-- rust/lance-core/src/datatypes/field.rs:79-85 `StorageClass`. -/
inductive Class | default | blob
deriving DecidableEq, Repr

/-- rust/lance-core/src/datatypes.rs `Dictionary`; `values` (the loaded array) is a token. -/
structure Dict where
  offset : Nat
  length : Nat
  values : Option Nat
deriving DecidableEq, Repr

/-- rust/lance-core/src/datatypes/field.rs:121-140 `Field` without its children. -/
structure Attr where
  name : String
  id : Int
  parent : Int
  ltype : String
  md : Md
  enc : Option Enc
  nullable : Bool
  dict : Option Dict
  cls : Class
deriving DecidableEq, Repr

/-- `Vec<Field>`: the first field, its children, and the fields after it. -/
inductive Forest
  | nil
  | cons (a : Attr) (kids rest : Forest)
deriving DecidableEq, Repr

/-- rust/lance-core/src/datatypes/schema.rs `Schema`. -/
structure Schema where
  fields : Forest
  md : Md
deriving DecidableEq, Repr

/-- protos/file.proto `Field`. -/
structure PbField where
  id : Int
  parent : Int
  name : String
  ltype : String
  enc : Nat
  nullable : Bool
  dict : Option (Int × Int)
  md : Md
  ext : String
  storage : String
deriving DecidableEq, Repr

/-- `usize as i64`. -/
def toI64 (n : Nat) : Int := if n < 9223372036854775808 then n else (n : Int) - 18446744073709551616
/-- `i64 as usize`. -/
def ofI64 (i : Int) : Nat := (i % 18446744073709551616).toNat

/-- rust/lance-arrow/src/bfloat16.rs `ARROW_EXT_NAME_KEY`. -/
def extKey : String := "ARROW:extension:name"

/-- rust/lance-file/src/datatypes.rs:61-67. -/
def encNum : Option Enc → Nat
  | some .plain => 1
  | some .varBinary => 2
  | some .dictionary => 3
  | some .rle => 4
  | none => 0

/-- rust/lance-file/src/datatypes.rs:38-44. -/
def encOf (n : Nat) : Option Enc :=
  match n with
  | 1 => some .plain
  | 2 => some .varBinary
  | 3 => some .dictionary
  | 4 => some .rle
  | _ => none

/-- field.rs:87-94 `Display for StorageClass`. -/
def classStr : Class → String
  | .default => "default"
  | .blob => "blob"

/-- field.rs:96-109 `FromStr for StorageClass`; the caller unwraps (datatypes.rs:48). -/
def classOf (s : String) : Except Err Class :=
  if s = "default" ∨ s = "" then .ok .default
  else if s = "blob" then .ok .blob
  else .error .panic

/-- datatypes.rs:52-82 `From<&Field> for pb::Field`. -/
def encField (a : Attr) : PbField where
  id := a.id
  parent := a.parent
  name := a.name
  ltype := a.ltype
  enc := encNum a.enc
  nullable := a.nullable
  dict := a.dict.map (fun d => (toI64 d.offset, toI64 d.length))
  md := a.md
  ext := (a.md.get extKey).getD ""
  storage := classStr a.cls

/-- datatypes.rs:19-50 `From<&pb::Field> for Field`. -/
def decField (p : PbField) : Except Err Attr :=
  match classOf p.storage with
  | .error e => .error e
  | .ok c => .ok {
      name := p.name, id := p.id, parent := p.parent, ltype := p.ltype,
      md := if p.ext = "" then p.md else Md.insert extKey p.ext p.md,
      enc := encOf p.enc, nullable := p.nullable,
      dict := p.dict.map (fun d => ⟨ofI64 d.1, ofI64 d.2, none⟩), cls := c }

/-- datatypes.rs:86-95, 143-151: a field, then its children, then the next field. -/
def flatten : Forest → List PbField
  | .nil => []
  | .cons a k r => encField a :: (flatten k ++ flatten r)

/-- `Vec::push` on the fields of a level. -/
def Forest.push (f : Forest) (a : Attr) : Forest :=
  match f with
  | .nil => .cons a .nil .nil
  | .cons b k r => .cons b k (r.push a)

/-- schema.rs:446-457 and field.rs:863-874 `mut_field_by_id(parent).unwrap().children.push(a)`: the first
field with that id, searching a field before its children and those before the next field. -/
def Forest.pushAt (p : Int) (a : Attr) : Forest → Option Forest
  | .nil => none
  | .cons b k r =>
    if b.id = p then some (.cons b (k.push a) r)
    else
      match k.pushAt p a with
      | some k' => some (.cons b k' r)
      | none =>
        match r.pushAt p a with
        | some r' => some (.cons b k r')
        | none => none

/-- datatypes.rs:105-112, one step. -/
def addField (f : Forest) (p : PbField) : Except Err Forest :=
  match decField p with
  | .error e => .error e
  | .ok a =>
    if p.parent = -1 then .ok (f.push a)
    else
      match f.pushAt p.parent a with
      | some f' => .ok f'
      | none => .error .panic

/-- datatypes.rs:97-115 `From<&Fields> for Schema`. -/
def unflattenFrom (f : Forest) : List PbField → Except Err Forest
  | [] => .ok f
  | p :: ps =>
    match addField f p with
    | .error e => .error e
    | .ok f' => unflattenFrom f' ps

def unflatten (ps : List PbField) : Except Err Forest := unflattenFrom .nil ps

/-- schema.rs:91-102 `retain_storage_class`. -/
def Forest.retain (c : Class) : Forest → Forest
  | .nil => .nil
  | .cons a k r => if a.cls = c then .cons a k (r.retain c) else r.retain c

/-! ## Fragments -/

/-- rust/lance-table/src/format/fragment.rs:21-39 `DataFile`. -/
structure File where
  path : String
  fields : List Int
  cols : List Int
  major : Nat
  minor : Nat
deriving DecidableEq, Repr

/-- fragment.rs:150-153 `DeletionFileType`. -/
inductive DelType | array | bitmap
deriving DecidableEq, Repr

/-- fragment.rs:167-173 `DeletionFile`. -/
structure DelFile where
  read : Nat
  id : Nat
  type : DelType
  num : Option Nat
deriving DecidableEq, Repr

/-- fragment.rs:212-216 `RowIdMeta`. -/
inductive RowIdMeta
  | inline (bytes : List UInt8)
  | external (path : String) (offset size : Nat)
deriving DecidableEq, Repr

/-- fragment.rs:237-260 `Fragment`. -/
structure Frag where
  id : Nat
  files : List File
  del : Option DelFile
  ids : Option RowIdMeta
  phys : Option Nat
deriving DecidableEq, Repr

/-- protos/table.proto:318-340 `DeletionFile`. -/
structure PbDel where
  type : Nat
  read : Nat
  id : Nat
  num : Nat
deriving DecidableEq, Repr

/-- protos/table.proto `DataFragment`; `DataFile` and the row id sequence have the same fields on both
sides (fragment.rs:122-146, 218-233, 405-414). -/
structure PbFrag where
  id : Nat
  files : List File
  del : Option PbDel
  ids : Option RowIdMeta
  phys : Nat
deriving DecidableEq, Repr

/-- fragment.rs:389-403. -/
def encDel (d : DelFile) : PbDel where
  type := match d.type with
    | .array => 0
    | .bitmap => 1
  read := d.read
  id := d.id
  num := d.num.getD 0

/-- fragment.rs:175-201 `TryFrom<pb::DeletionFile>`. -/
def decDel (p : PbDel) : Except Err DelFile :=
  let num := if p.num = 0 then none else some p.num
  match p.type with
  | 0 => .ok ⟨p.read, p.id, .array, num⟩
  | 1 => .ok ⟨p.read, p.id, .bitmap, num⟩
  | _ => .error .notSupported

/-- fragment.rs:387-425 `From<&Fragment> for pb::DataFragment`. -/
def encFrag (f : Frag) : PbFrag := ⟨f.id, f.files, f.del.map encDel, f.ids, f.phys.getD 0⟩

/-- fragment.rs:363-385 `TryFrom<pb::DataFragment>`. -/
def decFrag (p : PbFrag) : Except Err Frag :=
  let phys := if p.phys > 0 then some p.phys else none
  match optE decDel p.del with
  | .error e => .error e
  | .ok d => .ok ⟨p.id, p.files, d, p.ids, phys⟩

/-- fragment.rs:271-286 `num_rows`; the subtraction panics when more rows are deleted than exist. -/
def Frag.numRows (f : Frag) : Except Err (Option Nat) :=
  match f.phys, f.del with
  | some n, none => .ok (some n)
  | some n, some d =>
    match d.num with
    | some k => if k ≤ n then .ok (some (n - k)) else .error .panic
    | none => .ok none
  | _, _ => .ok none

/-! ## Indices -/

/-- `uuid::Uuid`: sixteen bytes. -/
abbrev Uuid := Vector UInt8 16

/-- rust/lance-table/src/format/index.rs:16-40 `Index`; the bitmap as the set of its values, the details
as a token. -/
structure Idx where
  uuid : Uuid
  fields : List Int
  name : String
  version : Nat
  bitmap : Option (List Nat)
  details : Option Nat
deriving DecidableEq, Repr

/-- protos/table.proto `IndexMetadata`.  `bitmap = none` stands for empty bytes: the byte form of a
roaring bitmap starts with a cookie and is never empty. -/
structure PbIdx where
  uuid : Option (List UInt8)
  fields : List Int
  name : String
  version : Nat
  bitmap : Option (List Nat)
  details : Option Nat
deriving DecidableEq, Repr

/-- rust/lance-table/src/format.rs:55-61. -/
def encUuid (u : Uuid) : List UInt8 := u.toArray.toList

/-- rust/lance-table/src/format.rs:39-53. -/
def decUuid (b : List UInt8) : Except Err Uuid :=
  if h : b.length = 16 then .ok ⟨b.toArray, by simpa using h⟩ else .error .malformed

/-- The `as_ref().map(..).ok_or_else(..)??` chain. -/
def reqUuid : Option (List UInt8) → Except Err Uuid
  | none => .error .missing
  | some b => decUuid b

/-- index.rs:81-103 `From<&Index> for pb::IndexMetadata` (serialising never fails). -/
def encIdx (i : Idx) : PbIdx := ⟨some (encUuid i.uuid), i.fields, i.name, i.version, i.bitmap, i.details⟩

/-- index.rs:54-79 `TryFrom<pb::IndexMetadata>`. -/
def decIdx (p : PbIdx) : Except Err Idx :=
  match reqUuid p.uuid with
  | .error e => .error e
  | .ok u => .ok ⟨u, p.fields, p.name, p.version, p.bitmap, p.details⟩

/-! ## Transactions -/

/-- transaction.rs:194-198 `RewriteGroup`. -/
structure Group where
  old : List Frag
  new : List Frag
deriving DecidableEq, Repr

/-- transaction.rs:109-182 `Operation`. -/
inductive Op
  | append (frags : List Frag)
  | delete (updated : List Frag) (deleted : List Nat) (predicate : String)
  | overwrite (frags : List Frag) (schema : Schema) (upsert : Option Md)
  | createIndex (new removed : List Idx)
  | rewrite (groups : List Group) (rewritten : List (Uuid × Uuid))
  | dataReplacement (repl : List (Nat × File))
  | merge (frags : List Frag) (schema : Schema)
  | restore (version : Nat)
  | reserve (n : Nat)
  | update (removed : List Nat) (updated new : List Frag)
  | project (schema : Schema)
  | updateConfig (upsert : Option Md) (deleteKeys : Option (List String)) (schemaMd : Option Md)
      (fieldMd : Option (List (Nat × Md)))
deriving DecidableEq, Repr

/-- transaction.rs:81-94 `Transaction`. -/
structure Tx where
  read : Nat
  uuid : String
  op : Op
  blobs : Option Op
  tag : Option String
deriving DecidableEq, Repr

/-- protos/transaction.proto, the `operation` alternatives.  The `schema_metadata` of `Overwrite` and
`Merge` is written empty and ignored on reading, so it is left out. -/
inductive PbOp
  | append (frags : List PbFrag)
  | delete (updated : List PbFrag) (deleted : List Nat) (predicate : String)
  | overwrite (frags : List PbFrag) (schema : List PbField) (upsert : Md)
  | createIndex (new removed : List PbIdx)
  | rewrite (old new : List PbFrag) (groups : List (List PbFrag × List PbFrag))
      (rewritten : List (Option (List UInt8) × Option (List UInt8)))
  | dataReplacement (repl : List (Nat × Option File))
  | merge (frags : List PbFrag) (schema : List PbField)
  | restore (version : Nat)
  | reserve (n : Nat)
  | update (removed : List Nat) (updated new : List PbFrag)
  | project (schema : List PbField)
  | updateConfig (upsert : Md) (deleteKeys : List String) (schemaMd : Md) (fieldMd : List (Nat × Md))
deriving DecidableEq, Repr

/-- protos/transaction.proto, the `blob_operation` alternatives. -/
inductive PbBlobOp
  | append (frags : List PbFrag)
  | overwrite (frags : List PbFrag) (schema : List PbField) (upsert : Md)
deriving DecidableEq, Repr

/-- protos/transaction.proto `Transaction`. -/
structure PbTx where
  read : Nat
  uuid : String
  op : Option PbOp
  blobs : Option PbBlobOp
  tag : String
deriving DecidableEq, Repr

/-- transaction.rs:1469-1587, the operation. -/
def encOp : Op → PbOp
  | .append fs => .append (fs.map encFrag)
  | .delete u d p => .delete (u.map encFrag) d p
  | .overwrite fs s c => .overwrite (fs.map encFrag) (flatten s.fields) (c.getD [])
  | .createIndex n r => .createIndex (n.map encIdx) (r.map encIdx)
  | .rewrite gs ri =>
    .rewrite [] [] (gs.map (fun g => (g.old.map encFrag, g.new.map encFrag)))
      (ri.map (fun r => (some (encUuid r.1), some (encUuid r.2))))
  | .dataReplacement rs => .dataReplacement (rs.map (fun r => (r.1, some r.2)))
  | .merge fs s => .merge (fs.map encFrag) (flatten s.fields)
  | .restore v => .restore v
  | .reserve n => .reserve n
  | .update r u n => .update r (u.map encFrag) (n.map encFrag)
  | .project s => .project (flatten s.fields)
  | .updateConfig u d s f => .updateConfig (u.getD []) (d.getD []) (s.getD []) (f.getD [])

/-- transaction.rs:1589-1611: anything but an append or an overwrite panics. -/
def encBlob : Op → Except Err PbBlobOp
  | .append fs => .ok (.append (fs.map encFrag))
  | .overwrite fs s c => .ok (.overwrite (fs.map encFrag) (flatten s.fields) (c.getD []))
  | _ => .error .panic

/-- transaction.rs:1467-1621 `From<&Transaction> for pb::Transaction`. -/
def encTx (t : Tx) : Except Err PbTx :=
  match optE encBlob t.blobs with
  | .error e => .error e
  | .ok b => .ok ⟨t.read, t.uuid, some (encOp t.op), b, t.tag.getD ""⟩

/-- transaction.rs:1221-1225 and 1386-1390. -/
def decUpsert (c : Md) : Option Md := if c.isEmpty then some c else none

/-- transaction.rs:1334-1361: an empty collection is read as absent. -/
def nonEmpty {α : Type} (l : List α) : Option (List α) := if l.length = 0 then none else some l

/-- transaction.rs:1449-1465 `TryFrom<pb::..::RewriteGroup>`. -/
def decGroup (g : List PbFrag × List PbFrag) : Except Err Group :=
  match mapE decFrag g.1 with
  | .error e => .error e
  | .ok o =>
    match mapE decFrag g.2 with
    | .error e => .error e
    | .ok n => .ok ⟨o, n⟩

/-- transaction.rs:1420-1447 `TryFrom<&pb::..::RewrittenIndex>`. -/
def decRewritten (r : Option (List UInt8) × Option (List UInt8)) : Except Err (Uuid × Uuid) :=
  match reqUuid r.1 with
  | .error e => .error e
  | .ok o =>
    match reqUuid r.2 with
    | .error e => .error e
    | .ok n => .ok (o, n)

/-- transaction.rs:1175-1191 `TryFrom<pb::..::DataReplacementGroup>`. -/
def decReplacement (r : Nat × Option File) : Except Err (Nat × File) :=
  match r.2 with
  | none => .error .invalid
  | some f => .ok (r.1, f)

/-- transaction.rs:1193-1373, the operation. -/
def decOp : PbOp → Except Err Op
  | .append fs =>
    match mapE decFrag fs with
    | .error e => .error e
    | .ok fs => .ok (.append fs)
  | .delete u d p =>
    match mapE decFrag u with
    | .error e => .error e
    | .ok u => .ok (.delete u d p)
  | .overwrite fs s c =>
    match mapE decFrag fs with
    | .error e => .error e
    | .ok fs =>
      match unflatten s with
      | .error e => .error e
      | .ok s => .ok (.overwrite fs ⟨s, []⟩ (decUpsert c))
  | .createIndex n r =>
    match mapE decIdx n with
    | .error e => .error e
    | .ok n =>
      match mapE decIdx r with
      | .error e => .error e
      | .ok r => .ok (.createIndex n r)
  | .rewrite o n gs ri =>
    match (if !gs.isEmpty then mapE decGroup gs else mapE decGroup [(o, n)]) with
    | .error e => .error e
    | .ok gs =>
      match mapE decRewritten ri with
      | .error e => .error e
      | .ok ri => .ok (.rewrite gs ri)
  | .dataReplacement rs =>
    match mapE decReplacement rs with
    | .error e => .error e
    | .ok rs => .ok (.dataReplacement rs)
  | .merge fs s =>
    match mapE decFrag fs with
    | .error e => .error e
    | .ok fs =>
      match unflatten s with
      | .error e => .error e
      | .ok s => .ok (.merge fs ⟨s, []⟩)
  | .restore v => .ok (.restore v)
  | .reserve n => .ok (.reserve n)
  | .update r u n =>
    match mapE decFrag u with
    | .error e => .error e
    | .ok u =>
      match mapE decFrag n with
      | .error e => .error e
      | .ok n => .ok (.update r u n)
  | .project s =>
    match unflatten s with
    | .error e => .error e
    | .ok s => .ok (.project ⟨s, []⟩)
  | .updateConfig u d s f => .ok (.updateConfig (nonEmpty u) (nonEmpty d) (nonEmpty s) (nonEmpty f))

/-- transaction.rs:1374-1405, the blob operation. -/
def decBlob : PbBlobOp → Except Err Op
  | .append fs =>
    match mapE decFrag fs with
    | .error e => .error e
    | .ok fs => .ok (.append fs)
  | .overwrite fs s c =>
    match mapE decFrag fs with
    | .error e => .error e
    | .ok fs =>
      match unflatten s with
      | .error e => .error e
      | .ok s => .ok (.overwrite fs ⟨s, []⟩ (decUpsert c))

/-- transaction.rs:1193-1418 `TryFrom<pb::Transaction>`. -/
def decTx (p : PbTx) : Except Err Tx :=
  match p.op with
  | none => .error .internal
  | some o =>
    match decOp o with
    | .error e => .error e
    | .ok op =>
      match optE decBlob p.blobs with
      | .error e => .error e
      | .ok b => .ok ⟨p.read, p.uuid, op, b, if p.tag = "" then none else some p.tag⟩

/-- rust/lance/src/io/commit.rs:108-121 and 59-69: what a reader of the transaction file gets. -/
def reread (t : Tx) : Except Err Tx :=
  match encTx t with
  | .error e => .error e
  | .ok p => decTx p

/-! ## Manifests -/

/-- manifest.rs:342-346, 348-352 and 33-92 `Manifest`.  The fragment offsets are a cache recomputed from
the fragments and are left out (C44). -/
structure Manifest where
  schema : Schema
  localSchema : Schema
  version : Nat
  writer : Option (String × String)
  frags : List Frag
  aux : Nat
  indexSection : Option Nat
  nanos : Nat
  tag : Option String
  rflags : Nat
  wflags : Nat
  maxFrag : Nat
  txFile : Option String
  nextRow : Nat
  format : String × String
  config : Md
  blobVersion : Option Nat
deriving DecidableEq, Repr

/-- protos/table.proto `Manifest`. -/
structure PbManifest where
  fields : List PbField
  md : Md
  version : Nat
  writer : Option (String × String)
  frags : List PbFrag
  aux : Nat
  indexSection : Option Nat
  time : Option (Int × Int)
  tag : String
  rflags : Nat
  wflags : Nat
  maxFrag : Nat
  txFile : String
  nextRow : Nat
  format : Option (String × String)
  config : Md
  blobVersion : Nat
deriving DecidableEq, Repr

/-- manifest.rs:548-557: seconds as `i64` and nanoseconds as `i32`. -/
def encTime (n : Nat) : Option (Int × Int) :=
  if n = 0 then none else some (toI64 ((n - n % 1000000000) / 1000000000 % 18446744073709551616), (n % 1000000000 : Nat))

/-- manifest.rs:462-466: `as u128` sign-extends; the arithmetic is checked, so out of range panics. -/
def decTime : Option (Int × Int) → Nat
  | none => 0
  | some (s, n) => (s % 340282366920938463463374607431768211456).toNat * 1000000000 +
      (n % 340282366920938463463374607431768211456).toNat

/-- rust/lance-encoding/src/version.rs:15-27 `LanceFileVersion`. -/
inductive FileVer | legacy | v2_0 | stable | v2_1 | next
deriving DecidableEq, Repr

/-- version.rs:31-37 `resolve`. -/
def FileVer.resolve : FileVer → FileVer
  | .stable => .v2_0
  | .next => .v2_1
  | v => v

/-- version.rs:39-53 `try_from_major_minor`. -/
def FileVer.ofNumbers (major minor : Nat) : Except Err FileVer :=
  match major, minor with
  | 0, 0 => .ok .legacy
  | 0, 1 => .ok .legacy
  | 0, 2 => .ok .legacy
  | 0, 3 => .ok .v2_0
  | 2, 0 => .ok .v2_0
  | 2, 1 => .ok .v2_1
  | _, _ => .error .invalid

/-- version.rs:55-63 `to_numbers`. -/
def FileVer.numbers (v : FileVer) : Nat × Nat :=
  match v.resolve with
  | .legacy => (0, 2)
  | .v2_0 => (2, 0)
  | _ => (2, 1)

/-- version.rs:66-80 `Display`. -/
def FileVer.show : FileVer → String
  | .legacy => "0.1"
  | .v2_0 => "2.0"
  | .v2_1 => "2.1"
  | .stable => "stable"
  | .next => "next"

/-- version.rs:82-100 `FromStr`, for a text without capital letters. -/
def FileVer.parse (s : String) : Except Err FileVer :=
  if s = "0.1" then .ok .legacy
  else if s = "2.0" then .ok .v2_0
  else if s = "2.1" then .ok .v2_1
  else if s = "stable" then .ok .stable
  else if s = "legacy" then .ok .legacy
  else if s = "0.3" then .ok .v2_0
  else .error .invalid

/-- The version of a data file, as `DataStorageFormat::new` (manifest.rs:357-362) records it. -/
def versionStr (major minor : Nat) : Except Err String :=
  match FileVer.ofNumbers major minor with
  | .error e => .error e
  | .ok v => .ok v.resolve.show

/-- fragment.rs:345-358, the check that all files have the version of the sample file. -/
def sameVersion (v : String) : List File → Except Err Unit
  | [] => .ok ()
  | f :: fs =>
    match versionStr f.major f.minor with
    | .error e => .error e
    | .ok v' => if v = v' then sameVersion v fs else .error .invalid

/-- fragment.rs:326-361 `try_infer_version`. -/
def inferVersion (frags : List Frag) : Except Err (Option String) :=
  match frags.flatMap (·.files) with
  | [] => .ok none
  | f :: fs =>
    match versionStr f.major f.minor with
    | .error e => .error e
    | .ok v =>
      match sameVersion v (f :: fs) with
      | .error e => .error e
      | .ok _ => .ok (some v)

/-- manifest.rs:496-511. `has_deprecated_v2_feature_flag` tests bit 2 (feature_flags.rs). -/
def decFormat (p : Option (String × String)) (frags : List Frag) (wflags : Nat) :
    Except Err (String × String) :=
  match p with
  | some f => .ok f
  | none =>
    match inferVersion frags with
    | .error e => .error e
    | .ok (some v) => .ok ("lance", v)
    | .ok none => .ok ("lance", (if wflags.testBit 2 then FileVer.stable else .legacy).resolve.show)

/-- manifest.rs:546-588 `From<&Manifest> for pb::Manifest`. -/
def encManifest (m : Manifest) : PbManifest where
  fields := flatten m.schema.fields
  md := m.schema.md
  version := m.version
  writer := m.writer
  frags := m.frags.map encFrag
  aux := m.aux
  indexSection := m.indexSection
  time := encTime m.nanos
  tag := m.tag.getD ""
  rflags := m.rflags
  wflags := m.wflags
  maxFrag := m.maxFrag
  txFile := m.txFile.getD ""
  nextRow := m.nextRow
  format := some m.format
  config := m.config
  blobVersion := m.blobVersion.getD 0

/-- manifest.rs:458-544 `TryFrom<pb::Manifest> for Manifest`. -/
def decManifest (p : PbManifest) : Except Err Manifest :=
  match mapE decFrag p.frags with
  | .error e => .error e
  | .ok frags =>
    if p.rflags.testBit 1 && !frags.all (fun f => f.ids.isSome) then .error .internal
    else
      match decFormat p.format frags p.wflags with
      | .error e => .error e
      | .ok format =>
        match unflatten p.fields with
        | .error e => .error e
        | .ok fields => .ok {
            schema := ⟨fields, p.md⟩
            localSchema := ⟨fields.retain .default, p.md⟩
            version := p.version
            writer := p.writer
            frags := frags
            aux := p.aux
            indexSection := p.indexSection
            nanos := decTime p.time
            tag := if p.tag = "" then none else some p.tag
            rflags := p.rflags
            wflags := p.wflags
            maxFrag := p.maxFrag
            txFile := if p.txFile = "" then none else some p.txFile
            nextRow := p.nextRow
            format := format
            config := p.config
            blobVersion := if p.blobVersion = 0 then none else some p.blobVersion }

/-- manifest.rs:207-212 `update_schema_metadata`: only `schema` is changed, not `local_schema`. -/
def Manifest.updateSchemaMd (m : Manifest) (md : Md) : Manifest :=
  { m with schema := { m.schema with md := md } }

end Verif.Stored
