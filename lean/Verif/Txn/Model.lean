import Verif.Common.SMap
import Verif.Common.Sort
import Verif.Common.Bm
/-!
# Transactions: operations, conflict matrix and manifest building

Sources: rust/lance/src/dataset/transaction.rs, rust/lance-table/src/format/manifest.rs,
rust/lance-table/src/feature_flags.rs, rust/lance/src/dataset.rs (`write_manifest_file`).

Simplifications used throughout:
* strings (paths, config keys and values, index names), uuids and tags are only ever compared, so they
  are natural-number tokens;
* a row id sequence is the list of ids it stores (how it is encoded is C10–C14);
* a deletion file is the set of deleted offsets it holds, with the number that makes its path unique;
* the schema is the list of its fields in pre-order, each with id and metadata.
-/
namespace Verif.Txn

scoped notation "U32" => (4294967296 : Nat)

/-- Errors and panics.  `conflict` is `Error::CommitConflict`, `panic` an unwrap on `None`, an index
out of bounds or `unreachable!`. -/
inductive Err | notSupported | internal | invalid | conflict | panic
deriving DecidableEq, Repr

/-- `HashMap<String, String>`. -/
abbrev Cfg := SMap Nat

/-- rust/lance-table/src/format/fragment.rs:18-50 `DataFile`.  `size` hints are left out. -/
structure File where
  path : Nat
  fields : List Int
  cols : List Int
  major : Nat
  minor : Nat
deriving DecidableEq, Repr

/-- rust/lance-table/src/format/fragment.rs `DeletionFile` together with the offsets stored in it. -/
structure DelFile where
  readVersion : Nat
  id : Nat
  offs : List Nat
deriving DecidableEq, Repr

/-- rust/lance-table/src/format/fragment.rs:236-262 `Fragment`. -/
structure Frag where
  id : Nat
  files : List File
  del : Option DelFile
  rowIds : Option (List Nat)
  phys : Option Nat
deriving DecidableEq, Repr

/-- rust/lance-table/src/format/index.rs `Index`; `dataset_version` and details are left out. -/
structure Idx where
  uuid : Nat
  name : Nat
  fields : List Int
  bitmap : Option Bm
deriving DecidableEq, Repr

/-- Schema: fields in pre-order with their metadata, and the schema metadata. -/
structure Schema where
  fields : List (Int × Cfg)
  md : Cfg
deriving DecidableEq, Repr

/-- rust/lance-table/src/format/manifest.rs:32-93 `Manifest` (blob version, writer version, index
section position, offsets cache and timestamps are left out). -/
structure Manifest where
  version : Nat
  schema : Schema
  frags : List Frag
  maxFrag : Nat
  nextRow : Nat
  rflags : Nat
  wflags : Nat
  config : Cfg
  txFile : Option Nat
  tag : Option Nat
deriving DecidableEq, Repr

/-- transaction.rs:194-198 `RewriteGroup`. -/
structure Group where
  old : List Frag
  new : List Frag
deriving DecidableEq, Repr

/-- transaction.rs:109-182 `Operation`. -/
inductive Op
  | append (frags : List Frag)
  | delete (updated : List Frag) (deleted : List Nat) (predicate : Nat)
  | overwrite (frags : List Frag) (schema : Schema) (upsert : Option Cfg)
  | createIndex (new removed : List Idx)
  | rewrite (groups : List Group) (rewritten : List (Nat × Nat))
  | dataReplacement (repl : List (Nat × File))
  | merge (frags : List Frag) (schema : Schema)
  | restore (version : Nat)
  | reserve (n : Nat)
  | update (removed : List Nat) (updated new : List Frag)
  | project (schema : Schema)
  | updateConfig (upsert : Option Cfg) (deleteKeys : Option (List Nat)) (schemaMd : Option Cfg)
      (fieldMd : Option (SMap Cfg))
deriving DecidableEq, Repr

/-- transaction.rs:81-94 `Transaction` (blob operation left out), with the flag
`ManifestWriteConfig::use_move_stable_row_ids` the writer commits with. -/
structure Tx where
  read : Nat
  uuid : Nat
  op : Op
  tag : Option Nat
  stable : Bool
deriving DecidableEq, Repr

/-! ## Conflict detection -/

/-- transaction.rs:224-262 `modified_fragment_ids`. -/
def Op.modifiedIds : Op → List Nat
  | .delete u d _ => u.map (·.id) ++ d
  | .rewrite gs _ => gs.flatMap (fun g => g.old.map (·.id))
  | .merge fs _ => fs.map (·.id)
  | .update r u _ => u.map (·.id) ++ r
  | .dataReplacement rs => rs.map (·.1)
  | _ => []

/-- transaction.rs:265-283 `get_upsert_config_keys`. -/
def Op.upsertKeys : Op → List Nat
  | .overwrite _ _ (some m) => m.map (·.1)
  | .updateConfig (some m) _ _ _ => m.map (·.1)
  | _ => []

/-- transaction.rs:286-294 `get_delete_config_keys`. -/
def Op.deleteKeys : Op → List Nat
  | .updateConfig _ (some d) _ _ => d
  | _ => []

/-- transaction.rs:297-301 `modifies_same_ids`. -/
def Op.sameIds (a b : Op) : Bool := b.modifiedIds.any (fun i => a.modifiedIds.contains i)

/-- transaction.rs:303-333 `modifies_same_metadata`. -/
def Op.sameMetadata : Op → Op → Bool
  | .updateConfig _ _ s f, .updateConfig _ _ s' f' =>
    (s.isSome && s'.isSome) ||
      match f, f' with
      | some m, some m' => (m.map (·.1)).any (fun k => (m'.map (·.1)).contains k)
      | _, _ => false
  | _, _ => false

/-- transaction.rs:336-350 `upsert_key_conflict`. -/
def Op.keyConflict (a b : Op) : Bool :=
  a.upsertKeys.any (fun x => b.upsertKeys.contains x || b.deleteKeys.contains x) ||
    b.upsertKeys.any (fun x => a.upsertKeys.contains x || a.deleteKeys.contains x)

/-- transaction.rs:388-530 `conflicts_with`: may `self` no longer be committed once `other` is? -/
def Op.conflicts (self other : Op) : Bool :=
  match self with
  | .append _ =>
    match other with
    | .append _ | .rewrite _ _ | .createIndex _ _ | .delete _ _ _ | .update _ _ _ | .reserve _
    | .project _ | .updateConfig _ _ _ _ | .dataReplacement _ => false
    | _ => true
  | .rewrite _ _ =>
    match other with
    | .append _ | .reserve _ => false
    | .delete _ _ _ | .rewrite _ _ | .update _ _ _ => self.sameIds other
    | .project _ | .updateConfig _ _ _ _ => false
    | _ => true
  | .restore _ => false
  | .reserve _ =>
    match other with
    | .overwrite _ _ _ | .restore _ => true
    | _ => false
  | .createIndex _ _ =>
    match other with
    | .append _ | .createIndex _ _ | .delete _ _ _ | .update _ _ _ | .merge _ _ | .reserve _
    | .updateConfig _ _ _ _ => false
    | _ => true
  | .delete _ _ _ | .update _ _ _ =>
    match other with
    | .createIndex _ _ | .reserve _ => false
    | .delete _ _ _ | .rewrite _ _ | .update _ _ _ => self.sameIds other
    | .project _ | .append _ | .updateConfig _ _ _ _ => false
    | _ => true
  | .overwrite _ _ _ =>
    match other with
    | .overwrite _ _ _ | .updateConfig _ _ _ _ => self.keyConflict other
    | _ => false
  | .updateConfig _ _ s f =>
    match other with
    | .overwrite _ _ _ => if s.isSome || f.isSome then true else self.keyConflict other
    | .updateConfig _ _ _ _ => self.keyConflict other || self.sameMetadata other
    | _ => false
  | .merge _ _ =>
    match other with
    | .createIndex _ _ | .reserve _ | .updateConfig _ _ _ _ => false
    | _ => true
  | .project _ =>
    match other with
    | .createIndex _ _ | .overwrite _ _ _ | .updateConfig _ _ _ _ => false
    | _ => true
  | .dataReplacement _ =>
    match other with
    | .append _ | .delete _ _ _ | .update _ _ _ | .merge _ _ | .updateConfig _ _ _ _ => false
    | _ => true

/-! ## Manifest helpers -/

/-- manifest.rs:241-249 `max_fragment_id()`. -/
def Manifest.maxFragId (m : Manifest) : Option Nat :=
  if m.maxFrag = 0 then (m.frags.map (·.id)).max? else some m.maxFrag

/-- manifest.rs:222-236 `update_max_fragment_id`; an id that does not fit in `u32` panics. -/
def Manifest.updateMax (m : Manifest) : Except Err Manifest :=
  let mx := (m.frags.map (·.id)).max?.getD 0
  if mx < U32 then .ok { m with maxFrag := if mx > m.maxFrag then mx else m.maxFrag } else .error .panic

/-- manifest.rs:261-266 / 336-338 `uses_move_stable_row_ids`: bit 1 of the reader flags. -/
def Manifest.usesStable (m : Manifest) : Bool := m.rflags.testBit 1

/-- `HashMap::extend`. -/
def Cfg.extend (c up : Cfg) : Cfg := up.foldl (fun acc e => SMap.insert e.1 e.2 acc) c

/-- manifest.rs:202-205 `delete_config_keys`. -/
def Cfg.deleteKeys (c : Cfg) (ks : List Nat) : Cfg := c.filter (fun e => !ks.contains e.1)

/-- manifest.rs:215-219 `update_field_metadata`: the first field with that id, nothing if absent. -/
def Schema.setFieldMd (s : Schema) (id : Nat) (md : Cfg) : Schema :=
  let rec go : List (Int × Cfg) → List (Int × Cfg)
    | [] => []
    | (i, m) :: r => if i = (id : Int) then (i, md) :: r else (i, m) :: go r
  { s with fields := go s.fields }

/-- feature_flags.rs:26-66 `apply_feature_flags`. -/
def applyFlags (m : Manifest) (enable : Bool) : Except Err Manifest :=
  let f1 := if m.frags.any (fun f => f.del.isSome) then 1 else 0
  let hasIds := m.frags.any (fun f => f.rowIds.isSome)
  if (hasIds || enable) && !m.frags.all (fun f => f.rowIds.isSome) then .error .invalid
  else
    let f2 := if hasIds || enable then 2 else 0
    let f8 := if m.config.isEmpty then 0 else 8
    .ok { m with rflags := f1 ||| f2, wflags := f1 ||| f2 ||| f8 }

/-- feature_flags.rs:68-70 `can_read_dataset`. -/
def canRead (rflags : Nat) : Bool := decide (rflags < 16)
/-- feature_flags.rs:72-74 `can_write_dataset`. -/
def canWrite (wflags : Nat) : Bool := decide (wflags < 16)

/-! ## Building the next manifest -/

/-- transaction.rs:532-546 `fragments_with_ids`: a zero id is replaced by the next free one. -/
def withIds : List Frag → Nat → List Frag × Nat
  | [], n => ([], n)
  | f :: fs, n =>
    if f.id = 0 then
      let r := withIds fs (n + 1)
      ({ f with id := n } :: r.1, r.2)
    else
      let r := withIds fs n
      (f :: r.1, r.2)

/-- transaction.rs:1148-1162 `assign_row_ids`. -/
def assignRowIds : List Frag → Nat → Except Err (List Frag × Nat)
  | [], n => .ok ([], n)
  | f :: fs, n =>
    match f.phys with
    | none => .error .internal
    | some p =>
      match assignRowIds fs (n + p) with
      | .error e => .error e
      | .ok (r, n') => .ok ({ f with rowIds := some (List.range' n p) } :: r, n')

/-- Row ids are assigned only when the dataset uses them (transaction.rs:683, 724, 737). -/
def assignIf (nr : Option Nat) (fs : List Frag) : Except Err (List Frag × Option Nat) :=
  match nr with
  | none => .ok (fs, none)
  | some n =>
    match assignRowIds fs n with
    | .error e => .error e
    | .ok (r, n') => .ok (r, some n')

/-- transaction.rs:1009-1031 `retain_relevant_indices`. -/
def retainIndices (ix : List Idx) (schema : Schema) (frags : List Frag) : List Idx :=
  (ix.filter (fun i => i.fields.all (fun f => (schema.fields.map (·.1)).contains f))).filter
    (fun i => match i.bitmap with
      | none => true
      | some b => b.any (fun id => (frags.map (·.id)).contains id))

/-- transaction.rs:1038-1061, one group of `recalculate_fragment_bitmap`. -/
def recalcStep (old : Bm) (acc : Bm) (g : Group) : Except Err Bm :=
  if g.old.any (fun f => old.has (f.id % U32)) then
    if g.old.all (fun f => old.has (f.id % U32)) then
      .ok ((g.new.map (fun f => f.id % U32)).foldl (fun b i => Bm.insert i b)
        ((g.old.map (fun f => f.id % U32)).foldl (fun b i => Bm.remove i b) acc))
    else .error .invalid
  else .ok acc

/-- transaction.rs:1033-1063 `recalculate_fragment_bitmap`. -/
def recalcFrom (old : Bm) : Bm → List Group → Except Err Bm
  | acc, [] => .ok acc
  | acc, g :: gs =>
    match recalcStep old acc g with
    | .error e => .error e
    | .ok acc' => recalcFrom old acc' gs

def recalc (old : Bm) (gs : List Group) : Except Err Bm := recalcFrom old old gs

/-- transaction.rs:757-765: every index with a bitmap is recalculated (stable row ids). -/
def recalcAll (gs : List Group) : List Idx → Except Err (List Idx)
  | [] => .ok []
  | i :: is =>
    match i.bitmap with
    | none =>
      match recalcAll gs is with
      | .error e => .error e
      | .ok r => .ok (i :: r)
    | some b =>
      match recalc b gs with
      | .error e => .error e
      | .ok b' =>
        match recalcAll gs is with
        | .error e => .error e
        | .ok r => .ok ({ i with bitmap := some b' } :: r)

/-- One entry of `handle_rewrite_indices`: the first index with the old uuid is replaced. -/
def rewriteIndex (gs : List Group) (oldId newId : Nat) : List Idx → Except Err (List Idx)
  | [] => .error .invalid
  | i :: is =>
    if i.uuid = oldId then
      match i.bitmap with
      | none => .error .invalid
      | some b =>
        match recalc b gs with
        | .error e => .error e
        | .ok b' => .ok ({ i with uuid := newId, bitmap := some b' } :: is)
    else
      match rewriteIndex gs oldId newId is with
      | .error e => .error e
      | .ok r => .ok (i :: r)

/-- transaction.rs:1065-1105 `handle_rewrite_indices`. -/
def rewriteIndices (gs : List Group) : List (Nat × Nat) → List Nat → List Idx → Except Err (List Idx)
  | [], _, ix => .ok ix
  | (o, n) :: rest, seen, ix =>
    if seen.contains o then .error .invalid
    else
      match rewriteIndex gs o n ix with
      | .error e => .error e
      | .ok ix' => rewriteIndices gs rest (o :: seen) ix'

/-- transaction.rs:1121-1130, the loop comparing `final_fragments[start + i]` with `old_fragments[i]`
from `i = 1`; `some true` all equal, `some false` a difference, `none` index out of bounds (panic). -/
def contiguous : List Frag → List Frag → Option Bool
  | _, [] => some true
  | [], _ :: _ => none
  | f :: fs, o :: os => if f.id ≠ o.id then some false else contiguous fs os

/-- transaction.rs:1113-1144, one group of `handle_rewrite_fragments`.  An empty group panics. -/
def rewriteGroup (frags : List Frag) (g : Group) (nid : Nat) : Except Err (List Frag × Nat) :=
  match g.old with
  | [] => .error .panic
  | o :: os =>
    if frags.any (fun f => f.id == o.id) then
      let start := frags.findIdx (fun f => f.id == o.id)
      let r := withIds g.new nid
      match contiguous (frags.drop (start + 1)) os with
      | none => .error .panic
      | some true => .ok (frags.take start ++ r.1 ++ frags.drop (start + g.old.length), r.2)
      | some false =>
        .ok (frags.filter (fun f => !(g.old.map (·.id)).contains f.id) ++ r.1, r.2)
    else .error .conflict

/-- transaction.rs:1107-1146 `handle_rewrite_fragments`. -/
def rewriteFrags : List Group → List Frag → Nat → Except Err (List Frag × Nat)
  | [], frags, n => .ok (frags, n)
  | g :: gs, frags, n =>
    match rewriteGroup frags g n with
    | .error e => .error e
    | .ok (fs, n') => rewriteFrags gs fs n'

/-- transaction.rs:846-862, a fragment with one data file replaced. -/
def replaceFile (f : Frag) (nf : File) : Frag :=
  let files := f.files.map (fun x =>
    if x.fields = nf.fields ∧ x.major = nf.major ∧ x.minor = nf.minor then { x with path := nf.path } else x)
  if (f.files.flatMap (·.fields)).any (fun i => nf.fields.contains i) then { f with files := files }
  else { f with files := files ++ [nf] }

/-- transaction.rs:830-877, the loop over the replacements. -/
def replaceAll (existing : List Frag) : List (Nat × File) → Except Err (List Frag)
  | [] => .ok []
  | (id, nf) :: rest =>
    match existing.find? (fun f => f.id == id) with
    | none => .error .invalid
    | some f =>
      let f' := replaceFile f nf
      if f' = f then .error .invalid
      else
        match replaceAll existing rest with
        | .error e => .error e
        | .ok r => .ok (f' :: r)

/-- transaction.rs:697-708: the last updated fragment with the same id wins. -/
def applyUpdated (ups : List Frag) (f : Frag) : Frag :=
  ups.foldl (fun cur u => if u.id = cur.id then u else cur) f

/-- transaction.rs:718-727: the first updated fragment with the same id wins. -/
def applyFirstUpdated (ups : List Frag) (f : Frag) : Frag :=
  (ups.find? (fun u => u.id == f.id)).getD f

/-- transaction.rs:789-800 `Project`: files none of whose fields remain are dropped. -/
def projectFrag (schema : Schema) (f : Frag) : Frag :=
  { f with files := f.files.filter (fun x => x.fields.any (fun i => (schema.fields.map (·.1)).contains i)) }

/-- The fragment lists, next row id and indices after the big match (transaction.rs:675-897), before
sorting. `fid` is the first free fragment id. -/
def opArms (op : Op) (existing : Option (List Frag)) (ix : List Idx) (schema : Schema)
    (fid : Nat) (nr : Option Nat) : Except Err (List Frag × Option Nat × List Idx) :=
  match op with
  | .append fs =>
    match existing with
    | none => .error .internal
    | some ex =>
      match assignIf nr (withIds fs fid).1 with
      | .error e => .error e
      | .ok (new, nr') => .ok (ex ++ new, nr', ix)
  | .delete ups del _ =>
    match existing with
    | none => .error .internal
    | some ex =>
      let fs := (ex.filter (fun f => !del.contains f.id)).map (applyUpdated ups)
      .ok (fs, nr, retainIndices ix schema fs)
  | .update rem ups new =>
    match existing with
    | none => .error .internal
    | some ex =>
      match assignIf nr (withIds new fid).1 with
      | .error e => .error e
      | .ok (new', nr') =>
        let fs := (ex.filter (fun f => !rem.contains f.id)).map (applyFirstUpdated ups) ++ new'
        .ok (fs, nr', retainIndices ix schema fs)
  | .overwrite fs _ _ =>
    match assignIf nr (withIds fs fid).1 with
    | .error e => .error e
    | .ok (new, nr') => .ok (new, nr', [])
  | .rewrite gs rew =>
    match existing with
    | none => .error .internal
    | some ex =>
      match rewriteFrags gs ex fid with
      | .error e => .error e
      | .ok (fs, _) =>
        match nr with
        | some _ =>
          match recalcAll gs ix with
          | .error e => .error e
          | .ok ix' => .ok (fs, nr, ix')
        | none =>
          match rewriteIndices gs rew [] ix with
          | .error e => .error e
          | .ok ix' => .ok (fs, nr, ix')
  | .createIndex new removed =>
    match existing with
    | none => .error .internal
    | some ex =>
      .ok (ex, nr, ix.filter (fun e =>
        !new.any (fun n => n.name == e.name) && !removed.any (fun o => o.uuid == e.uuid)) ++ new)
  | .reserve _ | .updateConfig _ _ _ _ =>
    match existing with
    | none => .error .internal
    | some ex => .ok (ex, nr, ix)
  | .merge fs _ => .ok (fs, nr, retainIndices ix schema fs)
  | .project _ =>
    match existing with
    | none => .error .internal
    | some ex =>
      let fs := ex.map (projectFrag schema)
      .ok (fs, nr, retainIndices ix schema fs)
  | .restore _ => .error .panic
  | .dataReplacement rs =>
    if ((rs.map (·.2.fields)).eraseDups).length > 1 then .error .invalid
    else
      match existing with
      | none => .error .internal
      | some ex =>
        match replaceAll ex rs with
        | .error e => .error e
        | .ok fs => .ok (fs ++ ex.filter (fun f => !(rs.map (·.1)).contains f.id), nr, ix)

/-- transaction.rs:611-627, the schema of the new version. -/
def newSchema (op : Op) (cur : Option Manifest) : Except Err Schema :=
  match op with
  | .overwrite _ s _ => .ok s
  | .merge _ s => .ok s
  | .project s => .ok s
  | _ => match cur with
    | some m => .ok m.schema
    | none => .error .internal

/-- transaction.rs:629-637, the first free fragment id. -/
def firstFragId (op : Op) (cur : Option Manifest) : Nat :=
  match op with
  | .overwrite _ _ _ => 0
  | _ => match cur.bind Manifest.maxFragId with
    | some i => i + 1
    | none => 0

/-- transaction.rs:641-661, the next row id if the dataset has stable row ids. -/
def startRowId (cur : Option Manifest) (stable : Bool) : Except Err (Option Nat) :=
  match cur with
  | some m => if m.usesStable then .ok (some m.nextRow) else if stable then .error .notSupported else .ok none
  | none => .ok (if stable then some 0 else none)

/-- transaction.rs:950-983, configuration and metadata changes. -/
def applyConfig (op : Op) (m : Manifest) : Manifest :=
  match op with
  | .overwrite _ _ (some up) => { m with config := m.config.extend up }
  | .updateConfig up del smd fmd =>
    let m := match del with | some ks => { m with config := m.config.deleteKeys ks } | none => m
    let m := match up with | some u => { m with config := m.config.extend u } | none => m
    let m := match smd with | some s => { m with schema := { m.schema with md := s } } | none => m
    match fmd with
    | some l => { m with schema := l.foldl (fun s e => s.setFieldMd e.1 e.2) m.schema }
    | none => m
  | _ => m

/-- transaction.rs:985-987: `max_fragment_id += num_fragments` on `u32` (wraps in a release build). -/
def applyReserve (op : Op) (m : Manifest) : Manifest :=
  match op with
  | .reserve n => { m with maxFrag := (m.maxFrag + n) % U32 }
  | _ => m

/-- `Manifest::new` / `Manifest::new_from_previous` (manifest.rs:116-180). -/
def freshManifest (cur : Option Manifest) (schema : Schema) (frags : List Frag) : Manifest :=
  match cur with
  | some p => { version := p.version + 1, schema, frags, maxFrag := p.maxFrag, nextRow := p.nextRow,
                rflags := 0, wflags := 0, config := p.config, txFile := none, tag := none }
  | none => { version := 1, schema, frags, maxFrag := 0, nextRow := 0, rflags := 0, wflags := 0,
              config := [], txFile := none, tag := none }

/-- transaction.rs:592-1007 `build_manifest`.  Storage format selection and timestamps are left out. -/
def buildManifest (tx : Tx) (cur : Option Manifest) (ix : List Idx) (txFile : Nat) :
    Except Err (Manifest × List Idx) :=
  if tx.stable && (cur.map (fun m => !m.usesStable)).getD false then .error .notSupported
  else
    match newSchema tx.op cur with
    | .error e => .error e
    | .ok schema =>
      match startRowId cur tx.stable with
      | .error e => .error e
      | .ok nr =>
        match opArms tx.op (cur.map (·.frags)) ix schema (firstFragId tx.op cur) nr with
        | .error e => .error e
        | .ok (fs, nr', ix') =>
          let m := { freshManifest cur schema (sortBy Frag.id fs) with tag := tx.tag }
          match applyFlags m tx.stable with
          | .error e => .error e
          | .ok m =>
            match m.updateMax with
            | .error e => .error e
            | .ok m =>
              let m := applyReserve tx.op (applyConfig tx.op m)
              let m := { m with txFile := some txFile, nextRow := nr'.getD m.nextRow }
              .ok (m, ix')

/-- dataset.rs:1663-1694 `write_manifest_file`: flags and high-water mark are computed once more. -/
def finish (m : Manifest) (stable : Bool) : Except Err Manifest :=
  match applyFlags m stable with
  | .error e => .error e
  | .ok m => m.updateMax

/-- transaction.rs:571-587 `restore_old_manifest`. -/
def restoreManifest (old : Manifest) (txFile : Nat) : Manifest := { old with txFile := some txFile }

/-- io/commit.rs:773-813, what one attempt writes as version `target`, built from the latest version
`cur`; `look v` is version `v`.  `migrate_manifest`, `fix_schema` and `migrate_indices` change nothing
when the previous writer recorded its version and are left out. -/
def attempt (look : Nat → Option (Manifest × List Idx)) (cur : Manifest × List Idx) (tx : Tx)
    (target : Nat) : Except Err (Manifest × List Idx) :=
  let built : Except Err (Manifest × List Idx) :=
    match tx.op with
    | .restore v =>
      match look v with
      | none => .error .internal
      | some (m, ix) => .ok (restoreManifest m tx.uuid, ix)
    | _ => buildManifest tx (some cur.1) cur.2 tx.uuid
  match built with
  | .error e => .error e
  | .ok (m, ix) =>
    match finish { m with version := target } tx.stable with
    | .error e => .error e
    | .ok m => .ok (m, ix)

/-- io/commit.rs:156-205 `do_commit_new_dataset`. -/
def attemptNew (tx : Tx) : Except Err (Manifest × List Idx) :=
  match buildManifest tx none [] tx.uuid with
  | .error e => .error e
  | .ok (m, ix) =>
    match finish m tx.stable with
    | .error e => .error e
    | .ok m => .ok (m, ix)

/-! ## The operation as other writers see it -/

/-- `None` for an empty map or list (transaction.rs:1321-1346). -/
def nonEmpty {α : Type} : Option (List α) → Option (List α)
  | some [] => none
  | x => x

/-- What `Transaction::try_from` gives back from the transaction file of an operation
(transaction.rs:1193-1400), as far as the conflict check looks at it: the test at 1224-1228 is inverted
and keeps the upserted keys of an `Overwrite` only if there are none; an empty list of rewrite groups
comes back as one empty group (1258-1273); empty maps of `UpdateConfig` come back as `None`.  The full
conversion is in `Verif.Txn.Stored`. -/
def Op.stored : Op → Op
  | .overwrite fs s up => .overwrite fs s (if (up.getD []).isEmpty then some (up.getD []) else none)
  | .rewrite [] rew => .rewrite [⟨[], []⟩] rew
  | .updateConfig up del smd fmd => .updateConfig (nonEmpty up) (nonEmpty del) (nonEmpty smd) (nonEmpty fmd)
  | op => op

end Verif.Txn
