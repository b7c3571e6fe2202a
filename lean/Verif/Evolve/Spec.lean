import Verif.Evolve.Ops
/-!
# What a user sees

A table is a number of rows and nested columns.  The operations are defined on tables, by the names of the columns: there are no ids, data
files, fragments or deletion vectors here.
-/
namespace Verif.Evolve

/-- Rows appended by name; a column that the new rows lack is null there. -/
def specAppend (n : Nat) : Tr Col → Tr Col → Tr Col
  | .nil, _ => .nil
  | .cons c k r, b =>
    match colByName c.name b with
    | some (d, l) => .cons { c with vals := c.vals ++ d.vals } (specAppend n k l) (specAppend n r b)
    | none => .cons { c with vals := c.vals ++ (if c.kind = .struct then [] else List.replicate n none) } (specAppend n k .nil) (specAppend n r b)

/-- What is left of the paths that begin with `x`. -/
def tailsOf (x : Nat) (paths : List (List Nat)) : List (List Nat) :=
  paths.filterMap (fun p => match p with | y :: q => if y = x then some q else none | [] => none)

/-- The columns without those at the given paths and below, and without structs and lists that have nothing left. -/
def specDrop (paths : List (List Nat)) : Tr Col → Tr Col
  | .nil => .nil
  | .cons c k r =>
    let ps := tailsOf c.name paths
    if ps = [] then .cons c k (specDrop paths r)
    else if ps.contains [] then specDrop paths r
    else
      match specDrop ps k with
      | .nil => specDrop paths r
      | k' => .cons c k' (specDrop paths r)

/-- A column after the alterations that name it: the last new name and the last nullability count, a primitive column can be cast once. -/
def specAlterCol (cs : Casts) (mine : List Alt) (c : Col) : Option Col :=
  let name := (mine.filterMap Alt.rename).getLast?.getD c.name
  let nullable := (mine.filterMap Alt.nullable).getLast?.getD c.nullable
  match mine.filterMap Alt.cast, c.kind with
  | [], _ => some { c with name := name, nullable := nullable }
  | [t], .leaf t0 => (c.vals.mapM (cs.cast t0 t)).map (fun v => ⟨name, .leaf t, nullable, v⟩)
  | _, _ => none

/-- The alterations, all found by the old paths. -/
def specAlter (cs : Casts) (alts : List Alt) (pre : List Nat) : Tr Col → Option (Tr Col)
  | .nil => some .nil
  | .cons c k r =>
    match specAlterCol cs (alts.filter (fun al => al.path == pre ++ [c.name])) c, specAlter cs alts (pre ++ [c.name]) k, specAlter cs alts pre r with
    | some c, some k, some r => some (.cons c k r)
    | _, _, _ => none

/-- A path is read if it leads to one of the given paths or lies below one. -/
def Asked (paths : List (List Nat)) (p : List Nat) : Prop := ∃ q ∈ paths, p <+: q ∨ q <+: p

instance (paths : List (List Nat)) (p : List Nat) : Decidable (Asked paths p) := by unfold Asked; infer_instance

/-- New columns computed row by row from the columns read. -/
def specAdd (reads : List (List Nat)) (out : Tr Out) (t : Data) : Tr Col :=
  t.cols.append (out.map (fun o => ⟨o.name, o.kind, o.nullable, if o.kind = .struct then [] else
    (List.range t.n).map (fun i => o.fn (fun p => if Asked reads p then (colAt p t.cols).map (fun c => c.vals.getD i none) else none))⟩))

/-- A column of nulls. -/
def Attr.nulls (n : Nat) (a : Attr) : Col := ⟨a.name, a.kind, a.nullable, if a.kind = .struct then [] else List.replicate n none⟩

/-- The table after an operation; `past` are the earlier tables. -/
def specStep (cs : Casts) (past : List Data) (t : Data) : Op → Option Data
  | .create _ b _ => some b
  | .append b _ => some ⟨t.n + b.n, specAppend b.n t.cols b.cols⟩
  | .addUdf reads out => some ⟨t.n, specAdd reads out t⟩
  | .addNulls new => some ⟨t.n, t.cols.append (new.map (Attr.nulls t.n))⟩
  | .addStream b _ => some ⟨t.n, t.cols.append b.cols⟩
  | .alter alts => (specAlter cs alts [] t.cols).map (fun c => ⟨t.n, c⟩)
  | .drop paths => some ⟨t.n, specDrop paths t.cols⟩
  | .delete dead => some (t.pick ((List.range t.n).filter (fun i => !dead i)))
  | .compact _ _ _ => some t
  | .restore k => past[k]?

/-- The earlier tables, oldest first, and the table after a history. -/
def specRun (cs : Casts) : List Data → Data → List Op → Option (List Data × Data)
  | past, t, [] => some (past, t)
  | past, t, op :: ops =>
    match specStep cs past t op with
    | none => none
    | some t' => specRun cs (past ++ [t]) t' ops

/-! ### Well-formed data -/

/-- A batch as Arrow allows it: every column has a cell for every row, a struct has children, a list has one child, a primitive column has
none, nulls only where they are allowed (below a list this is not looked at). -/
def ColsOk (n : Nat) : Bool → Tr Col → Prop
  | _, .nil => True
  | items, .cons c k r =>
    (match c.kind with
      | .leaf _ => k = .nil ∧ c.vals.length = n
      | .list => (∃ d l, k = .cons d l .nil) ∧ c.vals.length = n
      | .struct => k ≠ .nil ∧ c.vals = []) ∧
    (items = false → nullOk c.nullable c.vals = true) ∧ ColsOk n (items || decide (c.kind = .list)) k ∧ ColsOk n items r

def DataOk (b : Data) : Prop := ColsOk b.n false b.cols ∧ b.cols ≠ .nil

/-- No two columns with the same name side by side, at any depth. -/
def Distinct {α : Type} (name : α → Nat) : Tr α → Prop
  | .nil => True
  | .cons a k r => (∀ t ∈ r.roots, name t.1 ≠ name a) ∧ Distinct name k ∧ Distinct name r

/-- The shape of a new column: a struct has children, a list one, a primitive column none. -/
def ShapeOk : Tr Attr → Prop
  | .nil => True
  | .cons a k r =>
    (match a.kind with
      | .leaf _ => k = .nil
      | .list => ∃ b l, k = .cons b l .nil
      | .struct => k ≠ .nil) ∧ ShapeOk k ∧ ShapeOk r

/-- The fields that are not inside a list. -/
def strict : Tr Attr → List Attr
  | .nil => []
  | .cons a k r => a :: ((if a.kind = .struct then strict k else []) ++ strict r)

/-- Every field has a column in the data, at every level. -/
def Complete : Tr Attr → Tr Col → Prop
  | .nil, _ => True
  | .cons a k r, b => (∃ t, colByName a.name b = some t ∧ Complete k t.2) ∧ Complete r b

/-- The data of an append has each column of the table with all its parts, or not at all; a column that is not there is nullable with all
its parts, and the format is not the legacy one. -/
def AppendFine (d : Ds) (b : Data) : Prop :=
  ∀ t ∈ d.schema.roots, (∃ c, colByName t.1.name b.cols = some c ∧ Complete t.2 c.2) ∨
    (colByName t.1.name b.cols = none ∧ d.legacy = false ∧ ∀ a ∈ t.1 :: (if t.1.kind = .struct then strict t.2 else []), a.nullable = true)

/-- No list on the way to the last name of the path. -/
def wholeLists : List Nat → Tr Attr → Prop
  | x :: y :: p, s => ∀ t, byName x s = some t → t.1.kind ≠ .list ∧ wholeLists (y :: p) t.2
  | _, _ => True

/-- The paths lead to columns, and lists are read whole. -/
def ReadFine (s : Tr Attr) (paths : List (List Nat)) : Prop := ∀ q ∈ paths, (fieldAt q s).isSome ∧ wholeLists q s

/-- A fragment with deleted rows stores the columns that are read. -/
def StoredFine (d : Ds) (paths : List (List Nat)) : Prop :=
  ∀ fr ∈ d.frags, fr.del = [] ∨ ∀ q ∈ paths, ∀ t ∈ d.schema.roots, q.head? = some t.1.name → t.1.id ∈ fr.files.flatMap File.ids

/-- After the alterations no two columns side by side have the same name, below the top level. -/
def NoClash (cs : Casts) (d : Ds) (alts : List Alt) : Prop :=
  ∀ cols, specAlter cs alts [] (d.schema.map (fun a => a.col [])) = some cols → ∀ t ∈ cols.roots, Distinct Col.name t.2

/-- Casts are of columns at the top level, which fragments with deleted rows store; names do not clash. -/
def AlterFine (cs : Casts) (d : Ds) (alts : List Alt) : Prop :=
  NoClash cs d alts ∧ (∀ al ∈ alts, al.cast.isSome → al.path.length = 1) ∧
    StoredFine d ((alts.filter (fun al => al.cast.isSome)).map Alt.path)

/-- A cast makes no null of a cell that is not null (`safe: false`). -/
def Casts.strict (cs : Casts) : Prop := ∀ t0 t x, cs.cast t0 t (some x) ≠ some none

/-! ### Histories -/

/-- The data and the schemas given to an operation are as Arrow allows them, without two columns of the same name side by side. -/
def WfOp : Op → Prop
  | .create _ b _ => DataOk b ∧ Distinct Col.name b.cols
  | .append b _ => DataOk b ∧ Distinct Col.name b.cols
  | .addUdf _ out => ShapeOk (out.map Out.attr) ∧ Distinct Attr.name (out.map Out.attr)
  | .addNulls new => ShapeOk new ∧ Distinct Attr.name new
  | .addStream b _ => DataOk b ∧ Distinct Col.name b.cols
  | _ => True

/-- An operation that the code carries out correctly on this version, if it accepts it. -/
def Fine (cs : Casts) (d : Ds) : Op → Prop
  | .append b _ => AppendFine d b
  | .addUdf reads _ => ReadFine d.schema reads ∧ StoredFine d reads
  | .alter alts => AlterFine cs d alts
  | .drop paths => ∀ q ∈ paths, wholeLists q d.schema
  | _ => True

/-- Every accepted operation of a history is fine where it is carried out. -/
def FineRun (cs : Casts) : State → List Op → Prop
  | _, [] => True
  | s, op :: ops =>
    match step cs s op with
    | none => FineRun cs s ops
    | some s' => Fine cs s.cur op ∧ FineRun cs s' ops

/-! ### What is accepted -/

/-- Nulls only where they are allowed; below a list this is not looked at. -/
def NullsOk : Tr Col → Prop
  | .nil => True
  | .cons c k r => nullOk c.nullable c.vals = true ∧ (c.kind = .struct → NullsOk k) ∧ NullsOk r

/-- Every column of the data is in the table with the same type, and has no null where the table has none. -/
def Fits : Bool → Tr Col → Tr Col → Prop
  | _, _, .nil => True
  | items, t, .cons c k r =>
    (∃ e, colByName c.name t = some e ∧ e.1.kind = c.kind ∧ (items = false → nullOk e.1.nullable c.vals = true) ∧
      Fits (items || decide (c.kind = .list)) e.2 k) ∧ Fits items t r

/-- What the data lacks is nullable in the table. -/
def MissingOk : Tr Col → Tr Col → Prop
  | .nil, _ => True
  | .cons c k r, b => ((∃ e, colByName c.name b = some e ∧ MissingOk k e.2) ∨ (colByName c.name b = none ∧ c.nullable = true)) ∧ MissingOk r b

/-- None of the new names is the name of a column. -/
def NewNames (t : Tr Col) (names : List Nat) : Prop := ∀ x ∈ names, colByName x t = none

/-- An operation that makes sense for the table; `past` is the number of earlier versions. -/
def Sensible (cs : Casts) (past : Nat) (t : Data) : Op → Prop
  | .create _ _ _ => True
  | .append b _ => Fits false t.cols b.cols ∧ MissingOk t.cols b.cols
  | .addUdf reads out => NewNames t.cols (out.roots.map (fun o => o.1.name)) ∧ (∀ q ∈ reads, (colAt q t.cols).isSome) ∧
      NullsOk (specAdd reads out t)
  | .addNulls new => NewNames t.cols (new.roots.map (fun a => a.1.name)) ∧ ∀ a ∈ new.flat, a.nullable = true
  | .addStream b _ => NewNames t.cols (b.cols.roots.map (fun c => c.1.name)) ∧ b.n = t.n
  | .alter alts => (∀ al ∈ alts, ∃ c, colAt al.path t.cols = some c ∧ ¬ (c.nullable = true ∧ al.nullable = some false) ∧
        ∀ x, al.cast = some x → ∃ t0, c.kind = .leaf t0 ∧ cs.allowed t0 x = true) ∧
      ∃ cols, specAlter cs alts [] t.cols = some cols ∧ Distinct Col.name cols
  | .drop paths => (∀ q ∈ paths, (colAt q t.cols).isSome) ∧ specDrop paths t.cols ≠ .nil
  | .delete _ => True
  | .compact _ _ _ => True
  | .restore k => k < past

/-- The operations for which the code decides by what makes sense. -/
def FineIf (cs : Casts) (d : Ds) : Op → Prop
  | .addUdf reads _ => ReadFine d.schema reads ∧ StoredFine d reads
  | .addNulls _ => d.legacy = false
  | .alter alts => NoClash cs d alts ∧ ∀ al ∈ alts, al.cast = none
  | .drop paths => ∀ q ∈ paths, wholeLists q d.schema
  | _ => True

end Verif.Evolve
