import Verif.Evolve.Model
/-!
# The operations on a dataset
-/
namespace Verif.Evolve

/-! ### Writing rows -/

/-- The rows of `0..n` cut into runs of the given sizes, the rest last; no empty runs.  Where the writer starts a new file
(`do_write_fragments`, write.rs 200-290) is property C29; here the sizes are arbitrary. -/
def cut : List Nat → Nat → Nat → List (List Nat)
  | [], off, n => if n = 0 then [] else [List.range' off n]
  | k :: ks, off, n =>
    let m := min k n
    if m = 0 then cut ks off n else List.range' off m :: cut ks (off + m) (n - m)

/-- Each run of rows is a new fragment with one data file. -/
def writeFrags (legacy : Bool) (s : Tr Attr) (b : Data) (sizes : List Nat) : Option (List Frag) :=
  (cut sizes 0 b.n).mapM (fun rows => (writeFile legacy s (b.pick rows)).map (fun f => ⟨[f], rows.length, []⟩))

/-- Create or overwrite: the schema of the data with new ids (schema.rs 589-603; write.rs 347-366; insert.rs 202-215).
`validate` is run by the writer and before committing. -/
def create (legacy : Bool) (b : Data) (sizes : List Nat) : Option Ds :=
  let s := setFieldId (b.cols.map Col.attr) (-1)
  if validate s then (writeFrags legacy s b sizes).map (fun frags => ⟨legacy, s, frags⟩) else none

/-- Append: the fields of the data must be in the schema, those not in the data must be nullable (insert.rs 249-285; write.rs 323-350). -/
def append (d : Ds) (b : Data) (sizes : List Nat) : Option Ds :=
  let ds := b.cols.map Col.attr
  if noExtra ds d.schema && compatible ds d.schema then
    match projectBySchema d.schema ds with
    | none => none
    | some w => (writeFrags d.legacy w b sizes).map (fun frags => { d with frags := d.frags ++ frags })
  else none

/-! ### Adding columns -/

/-- The deleted rows are put back with the cells of the first row (updater.rs 236-406 `DeletionRestorer`, `add_blanks`).  The walk over
the deletion vector is modelled for property C58; this is its result for one batch: deletions beyond the end are an error. -/
def restore (del : List Nat) (b : Data) : Option Data :=
  let n := b.n + del.length
  if del.all (fun i => decide (i < n)) && (decide (0 < b.n) || del == []) then
    some (b.pick ((List.range n).map (fun i => if del.contains i then 0 else i - (del.filter (fun j => decide (j < i))).length)))
  else none

/-- One fragment of `add_columns_impl` and of `add_columns_from_stream`: read, compute, put deleted rows back, write a new data file
(schema_evolution.rs 343-401, updater.rs 95-215).  `w` is the schema to write with. -/
def updateFrag (legacy : Bool) (s reads w : Tr Attr) (f : Data → Option Data) (fr : Frag) : Option Frag :=
  match readFrag true s reads fr with
  | none => none
  | some b =>
    match f b with
    | none => none
    | some nb =>
      if b.n = nb.n then
        match restore fr.del nb with
        | none => none
        | some rb => (writeFile legacy w rb).map (fun file => { fr with files := fr.files ++ [file] })
      else none

/-- `check_names` (schema_evolution.rs 139-152). -/
def namesNew (s new : Tr Attr) : Bool := s.roots.all (fun t => !new.roots.any (fun u => u.1.name == t.1.name))

/-- A column computed row by row from the cells that are read (a field of the output schema, nested columns by their parts).  The function
looks up the cells of the row by path; a column that was not read has none. -/
structure Out where
  name : Nat
  kind : Kind
  nullable : Bool
  fn : (List Nat → Option Cell) → Cell

def Out.attr (o : Out) : Attr := ⟨o.name, -1, o.kind, o.nullable⟩

/-- The cells of row `i` by path. -/
def rowAt (b : Tr Col) (i : Nat) (p : List Nat) : Option Cell := (colAt p b).map (fun c => c.vals.getD i none)

/-- The batch a function computes from a batch. -/
def outCols (out : Tr Out) (b : Data) : Tr Col :=
  out.map (fun o => ⟨o.name, o.kind, o.nullable, if o.kind = .struct then [] else (List.range b.n).map (fun i => o.fn (rowAt b.cols i))⟩)

/-- The schema after adding columns (schema_evolution.rs 288-289), which is also what the updater makes of it (updater.rs 185-197). -/
def addedSchema (d : Ds) (new : Tr Attr) : Tr Attr := setFieldId (addFields d.schema new) d.maxFieldId

/-- `add_columns` with a function or with SQL expressions (schema_evolution.rs 154-232).  The batches a function returns have the declared
schema (`python/python/lance/udf.py` 40-58). -/
def addUdf (d : Ds) (reads : List (List Nat)) (out : Tr Out) : Option Ds :=
  let new := out.map Out.attr
  if namesNew d.schema new then
    match project d.schema reads .nil, projectBySchema (addedSchema d new) new with
    | some p, some w =>
      (d.frags.mapM (updateFrag d.legacy d.schema p w (fun b => some ⟨b.n, outCols out b⟩))).map (fun frags =>
        { d with schema := addedSchema d new, frags := frags })
    | _, _ => none
  else none

/-- `add_columns` with a schema only (schema_evolution.rs 249-285). -/
def addNulls (d : Ds) (new : Tr Attr) : Option Ds :=
  if namesNew d.schema new && new.flat.all Attr.nullable && !(d.frags.any (fun fr => fr.files.any File.legacy)) then
    some { d with schema := addedSchema d new }
  else none

/-- Take `n` rows from the batches of a stream: a batch that is too long is split, its rest kept for later
(schema_evolution.rs 419-446). -/
def pull : Nat → List (List Nat) → Option (List Nat × List (List Nat))
  | 0, bs => some ([], bs)
  | _ + 1, [] => none
  | n + 1, b :: bs =>
    if n + 1 < b.length then some (b.take (n + 1), b.drop (n + 1) :: bs)
    else (pull (n + 1 - b.length) bs).map (fun r => (b ++ r.1, r.2))

/-- `add_columns_from_stream` (schema_evolution.rs 403-466): the fragments in turn; `bs` is what is left of the stream. -/
def streamFrags (legacy : Bool) (s w : Tr Attr) (b : Data) : List Frag → List (List Nat) → Option (List Frag × List (List Nat))
  | [], bs => some ([], bs)
  | fr :: rest, bs =>
    match pull (alive fr.phys fr.del).length bs with
    | none => none
    | some (rows, bs) =>
      match updateFrag legacy s .nil w (fun _ => some (b.pick rows)) fr with
      | none => none
      | some fr' => (streamFrags legacy s w b rest bs).map (fun r => (fr' :: r.1, r.2))

/-- `add_columns` with a reader whose batches have the given sizes; whatever is left of the stream is an error
(schema_evolution.rs 233-248, 458-464). -/
def addStream (d : Ds) (b : Data) (sizes : List Nat) : Option Ds :=
  let new := b.cols.map Col.attr
  if namesNew d.schema new then
    match projectBySchema (addedSchema d new) new with
    | none => none
    | some w =>
      match streamFrags d.legacy d.schema w b d.frags (cut sizes 0 b.n) with
      | some (frags, []) => some { d with schema := addedSchema d new, frags := frags }
      | _ => none
  else none

/-! ### Altering and dropping columns -/

/-- `ColumnAlteration` (schema_evolution.rs 68-82). -/
structure Alt where
  path : List Nat
  rename : Option Nat
  nullable : Option Bool
  cast : Option Nat
deriving DecidableEq, Repr

/-- `mut_field_by_id` (schema.rs 447-458, field.rs 853-864). -/
def mutById (i : Int) (g : Attr → Attr) : Tr Attr → Option (Tr Attr)
  | .nil => none
  | .cons a k rest =>
    if a.id = i then some (.cons (g a) k rest)
    else
      match mutById i g k with
      | some k' => some (.cons a k' rest)
      | none => (mutById i g rest).map (fun r => .cons a k r)

/-- Which casts exist between primitive types, and what they make of a cell; an error if the cell does not fit
(`can_cast_types` and `is_upcast_downcast`, schema_evolution.rs 106-131; `cast_with_options` with `safe: false`). -/
structure Casts where
  allowed : Nat → Nat → Bool
  cast : Nat → Nat → Cell → Option Cell

/-- The new schema, the casts (old path, new field) and the next id after some alterations. -/
structure AltState where
  schema : Tr Attr
  casts : List (List Nat × Attr × Attr)
  next : Int

/-- One alteration (schema_evolution.rs 483-560).  Simplified: only primitive columns can be cast, the code also casts lists. -/
def alterOne (cs : Casts) (s : Tr Attr) (st : AltState) (al : Alt) : Option AltState :=
  match fieldAt al.path s with
  | none => none
  | some (src, _) =>
    if src.nullable && al.nullable == some false then none else
      let g := fun (a : Attr) => { a with name := al.rename.getD a.name, nullable := al.nullable.getD a.nullable }
      match al.cast with
      | none => (mutById src.id g st.schema).map (fun s' => { st with schema := s' })
      | some t =>
        match src.kind with
        | .leaf t0 =>
          if cs.allowed t0 t then
            let g' := fun (a : Attr) => { g a with id := st.next, kind := .leaf t }
            match mutById src.id g' st.schema, (st.schema.flat.find? (fun a => a.id == src.id)) with
            | some s', some a => some ⟨s', st.casts ++ [(al.path, src, g' a)], st.next + 1⟩
            | _, _ => none
          else none
        | _ => none

def alterAll (cs : Casts) (s : Tr Attr) : AltState → List Alt → Option AltState
  | st, [] => some st
  | st, al :: als => (alterOne cs s st al).bind (fun st' => alterAll cs s st' als)

/-- The batch with the cast columns, each found at the top level by its old name (`batch[&old.name]` panics if there is none;
schema_evolution.rs 590-610). -/
def castCols (cs : Casts) : List (List Nat × Attr × Attr) → Tr Col → Option (Tr Col)
  | [], _ => some .nil
  | (_, old, new) :: rest, b =>
    match colByName old.name b with
    | none => none
    | some (c, _) =>
      match old.kind, new.kind with
      | .leaf t0, .leaf t =>
        match c.vals.mapM (cs.cast t0 t), castCols cs rest b with
        | some v, some r => some (.cons (new.col v) .nil r)
        | _, _ => none
      | _, _ => none

/-- Data files without any field of the schema are taken out (transaction.rs 782-798, schema_evolution.rs 624-637). -/
def dropFiles (s : Tr Attr) (fr : Frag) : Frag := { fr with files := fr.files.filter (fun f => f.ids.any (fun i => (ids s).contains i)) }

/-- `alter_columns` (schema_evolution.rs 471-650). -/
def alter (cs : Casts) (d : Ds) (alts : List Alt) : Option Ds :=
  match alterAll cs d.schema ⟨d.schema, [], d.maxFieldId + 1⟩ alts with
  | none => none
  | some st =>
    if validate st.schema then
      match st.casts with
      | [] => some { d with schema := st.schema, frags := d.frags.map (dropFiles st.schema) }
      | casts =>
        match project d.schema (casts.map Prod.fst) .nil with
        | none => none
        | some p =>
          let w := projectByIds (casts.map (fun c => c.2.2.id)) true st.schema
          (d.frags.mapM (updateFrag d.legacy d.schema p w (fun b => (castCols cs casts b.cols).map (fun c => ⟨b.n, c⟩)))).map (fun frags =>
            { d with schema := st.schema, frags := frags.map (dropFiles st.schema) })
    else none

/-- `drop_columns` (schema_evolution.rs 660-712). -/
def drop (d : Ds) (paths : List (List Nat)) : Option Ds :=
  if paths.all (fun p => (fieldAt p d.schema).isSome) then
    match project d.schema paths .nil with
    | none => none
    | some p =>
      match exclude true d.schema p with
      | .nil => none
      | s => some { d with schema := s, frags := d.frags.map (dropFiles s) }
  else none

/-! ### Rows -/

/-- Delete the rows for which `dead` holds at their position in the table; `off` rows come before the fragment.  A fragment without rows
is removed (property C05 is about deletion vectors, C32 about `delete`). -/
def deleteFrag (dead : Nat → Bool) (off : Nat) (fr : Frag) : Option Frag :=
  let gone := ((alive fr.phys fr.del).zipIdx.filter (fun p => dead (off + p.2))).map Prod.fst
  let del := fr.del ++ gone
  if (alive fr.phys del) == [] then none else some { fr with del := del }

def deleteFrags (dead : Nat → Bool) : Nat → List Frag → List Frag
  | _, [] => []
  | off, fr :: rest => (deleteFrag dead off fr).toList ++ deleteFrags dead (off + (alive fr.phys fr.del).length) rest

/-- Compact `len` neighbouring fragments from the one at `lo` (properties C25, C26): their rows are read and written with the schema of the
dataset. -/
def compact (d : Ds) (lo len : Nat) (sizes : List Nat) : Option Ds :=
  match readFrags d.schema d.schema ((d.frags.drop lo).take len) with
  | none => none
  | some b =>
    (writeFrags d.legacy d.schema b sizes).map (fun frags =>
      { d with frags := d.frags.take lo ++ frags ++ (d.frags.drop lo).drop len })

/-! ### Histories -/

/-- What a user does. -/
inductive Op where
  | create (legacy : Bool) (b : Data) (sizes : List Nat)
  | append (b : Data) (sizes : List Nat)
  | addUdf (reads : List (List Nat)) (out : Tr Out)
  | addNulls (new : Tr Attr)
  | addStream (b : Data) (sizes : List Nat)
  | alter (alts : List Alt)
  | drop (paths : List (List Nat))
  | delete (dead : Nat → Bool)
  | compact (lo len : Nat) (sizes : List Nat)
  | restore (k : Nat)

/-- The current version and the versions before it, oldest first. -/
structure State where
  cur : Ds
  past : List Ds

/-- One operation on the current version; `none`: it is rejected and changes nothing. -/
def stepDs (cs : Casts) (past : List Ds) (d : Ds) : Op → Option Ds
  | .create legacy b sizes => create legacy b sizes
  | .append b sizes => append d b sizes
  | .addUdf reads out => addUdf d reads out
  | .addNulls new => addNulls d new
  | .addStream b sizes => addStream d b sizes
  | .alter alts => alter cs d alts
  | .drop paths => drop d paths
  | .delete dead => some { d with frags := deleteFrags dead 0 d.frags }
  | .compact lo len sizes => compact d lo len sizes
  | .restore k => past[k]?

def step (cs : Casts) (s : State) (op : Op) : Option State :=
  (stepDs cs s.past s.cur op).map (fun d => ⟨d, s.past ++ [s.cur]⟩)

/-- A history: rejected operations leave everything as it is; the accepted ones are listed. -/
def run (cs : Casts) (s : State) : List Op → State × List Op
  | [] => (s, [])
  | op :: ops =>
    match step cs s op with
    | none => run cs s ops
    | some s' => let r := run cs s' ops; (r.1, op :: r.2)

/-- Before the first `create`: a table without columns. -/
def State.init : State := ⟨⟨false, .nil, []⟩, []⟩

end Verif.Evolve
