/-!
# Columns inside columns in plans (`rust/lance/src/io/exec/projection.rs`, `rust/lance-arrow/src/lib.rs` 657-726)

Two functions put the columns of a query together when they come from several steps: `merge_with_schema` joins the columns that a scan has read with those that `TakeExec`
reads late, and `project` makes the columns of two branches of a plan the same before their union.  Both work on columns and not on single rows, and do the same to every
row, so one row is modelled: a list of columns, which are either values (lists and everything else that is not a struct included) or structs with columns inside.
Names are numbers.  Types of values and the flags for nullable fields and metadata are left out.  Errors and panics are `none`.
-/

namespace Verif.Nest

abbrev Name := Nat

/-- The columns of a batch or of a struct, for one row (`StructArray`: a bit that says whether the struct is valid, and the arrays of its children, which have values also where the struct is null). -/
inductive Cols where
  | nil
  | leaf (name : Name) (value : Option Nat) (rest : Cols)
  | node (name : Name) (valid : Bool) (kids rest : Cols)
deriving Repr, DecidableEq

/-- The fields of a schema or of a struct. -/
inductive Fields where
  | nil
  | leaf (name : Name) (rest : Fields)
  | node (name : Name) (kids rest : Fields)
deriving Repr, DecidableEq

/-- One column. -/
inductive Col where
  | value (v : Option Nat)
  | struct (valid : Bool) (kids : Cols)
deriving Repr, DecidableEq

/-- The fields of columns. -/
def Cols.fields : Cols → Fields
  | .nil => .nil
  | .leaf n _ rest => .leaf n rest.fields
  | .node n _ kids rest => .node n kids.fields rest.fields

/-! ## `merge_with_schema` -/

/-- `lance-arrow/src/lib.rs` 680-686 for a field that is not a struct: the first column of that name that is not a struct. -/
def Cols.findLeaf (n : Name) : Cols → Option (Option Nat)
  | .nil => none
  | .leaf m v rest => if m = n then some v else rest.findLeaf n
  | .node _ _ _ rest => rest.findLeaf n

/-- `lance-arrow/src/lib.rs` 680-686 for a struct. -/
def Cols.findNode (n : Name) : Cols → Option (Bool × Cols)
  | .nil => none
  | .leaf _ _ rest => rest.findNode n
  | .node m b kids rest => if m = n then some (b, kids) else rest.findNode n

/-- `lance-arrow/src/lib.rs` 657-726: `StructArray::from` makes a struct without a buffer of nulls. -/
def mergeWithSchema (left right : Cols) : Fields → Cols
  | .nil => .nil
  | .leaf n rest =>
    match left.findLeaf n, right.findLeaf n with
    | none, some v => .leaf n v (mergeWithSchema left right rest)
    | some v, _ => .leaf n v (mergeWithSchema left right rest)
    | none, none => mergeWithSchema left right rest
  | .node n kids rest =>
    match left.findNode n, right.findNode n with
    | none, some (b, ks) => .node n b ks (mergeWithSchema left right rest)
    | some (b, ks), none => .node n b ks (mergeWithSchema left right rest)
    | some (_, ks), some (_, ks') => .node n true (mergeWithSchema ks ks' kids) (mergeWithSchema left right rest)
    | none, none => mergeWithSchema left right rest

/-! ## `project` -/

/-- `projection.rs` 137-144: what to select from a struct or a schema. -/
inductive Sel where
  | nil
  | full (name : Name) (rest : Sel)
  | part (name : Name) (kids rest : Sel)
deriving Repr, DecidableEq

def Fields.length : Fields → Nat
  | .nil => 0
  | .leaf _ rest => rest.length + 1
  | .node _ _ rest => rest.length + 1

/-- `projection.rs` 183-186. -/
def Sel.allFull : Sel → Bool
  | .nil => true
  | .full _ rest => rest.allFull
  | .part _ _ _ => false

/-- `projection.rs` 165-179: the children of the first field of that name; an error unless it is there and is a struct. -/
def Fields.structNamed (n : Name) : Fields → Option Fields
  | .nil => none
  | .leaf m rest => if m = n then none else rest.structNamed n
  | .node m kids rest => if m = n then some kids else rest.structNamed n

/-- `projection.rs` 156-201 (`compute_projection`). -/
def computeProjection (schema : Fields) : Fields → Option Sel
  | .nil => some .nil
  | .leaf n rest =>
    match computeProjection schema rest with
    | some sel => some (.full n sel)
    | none => none
  | .node n kids rest =>
    match schema.structNamed n with
    | none => none
    | some inner =>
      match computeProjection inner kids with
      | none => none
      | some sub =>
        match computeProjection schema rest with
        | none => none
        | some sel => if kids.length = inner.length ∧ sub.allFull then some (.full n sel) else some (.part n sub sel)

/-- `Fields::find` in `projection.rs` 61 and 71: the first column of that name. -/
def Cols.find (n : Name) : Cols → Option Col
  | .nil => none
  | .leaf m v rest => if m = n then some (.value v) else rest.find n
  | .node m b kids rest => if m = n then some (.struct b kids) else rest.find n

/-- `projection.rs` 54-101 (`selection_as_expr`), and the value of the expressions: a column, or `get_field` of a struct, is the array of that child as it is; `named_struct` is
a struct without a buffer of nulls and needs at least one child (both are functions of DataFusion, and trusted). -/
def evalSel : Sel → Cols → Option Cols
  | .nil, _ => some .nil
  | .full n rest, c =>
    match c.find n, evalSel rest c with
    | some (.value v), some out => some (.leaf n v out)
    | some (.struct b ks), some out => some (.node n b ks out)
    | _, _ => none
  | .part n kids rest, c =>
    match c.find n with
    | some (.struct _ ks) =>
      if kids = .nil then none
      else
        match evalSel kids ks, evalSel rest c with
        | some inner, some out => some (.node n true inner out)
        | _, _ => none
    | _ => none

/-- `projection.rs` 35-52. -/
def project (input : Cols) (projection : Fields) : Option Cols :=
  match computeProjection input.fields projection with
  | none => none
  | some sel => evalSel sel input

end Verif.Nest
