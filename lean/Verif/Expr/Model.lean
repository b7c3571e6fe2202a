import Verif.Scalar.Model

/-! Model of the split of a filter into an index query and a refine filter
(rust/lance-index/src/scalar/expression.rs).

Columns are numbers.  Scalar columns and list columns are numbered separately.  A term that is neither a column nor
a literal, and a condition of any other form than those below, is opaque: the row says what its value is. -/
namespace Verif.Expr
open Verif
open Verif.RowSet (TreeMap Mask)
open Verif.Scalar (LinOrd Bd LQuery)

/-- Terms: `Expr::Column`, `Expr::Literal` (`none`: NULL), anything else. -/
inductive Tm (V : Type) where
  | col (c : Nat)
  | lit (w : Option V)
  | other (k : Nat)
  deriving DecidableEq, Repr

/-- The comparison operators. -/
inductive Cmp where
  | lt | le | gt | ge | eq | ne
  deriving DecidableEq, Repr

/-- Conditions: the variants of datafusion's `Expr` that `visit_node` (expression.rs:700-715) looks at.  The list of an
`InList` and the bounds of a `Between` are terms. -/
inductive Expr (V : Type) where
  | boolCol (c : Nat)
  | cmp (op : Cmp) (l r : Tm V)
  | between (t lo hi : Tm V) (neg : Bool)
  | inList (t : Tm V) (ws : List (Tm V)) (neg : Bool)
  | isNull (t : Tm V)
  | isNotNull (t : Tm V)
  | isTrue (e : Expr V)
  | isFalse (e : Expr V)
  | not (e : Expr V)
  | and (l r : Expr V)
  | or (l r : Expr V)
  | hasAll (c : Nat) (labels : List (Option V))
  | hasAny (c : Nat) (labels : List (Option V))
  | other (k : Nat)

/-- scalar.rs `SargableQuery` as the parser makes it: bounds are literals and may be NULL. -/
inductive SQuery (V : Type) where
  | range (lo hi : Bd (Option V))
  | isIn (ws : List (Option V))
  | equals (w : Option V)
  | isNull
  deriving DecidableEq, Repr

/-- expression.rs:352-358 `ScalarIndexExpr`; a query on a scalar column or on a list column. -/
inductive IxExpr (V : Type) where
  | not (e : IxExpr V)
  | and (l r : IxExpr V)
  | or (l r : IxExpr V)
  | query (c : Nat) (q : SQuery V)
  | labels (c : Nat) (q : LQuery V)

/-- expression.rs:50-56 `IndexedExpression`. -/
structure IxPlan (V : Type) where
  query : Option (IxExpr V)
  refine : Option (Expr V)

/-- expression.rs:718-721 `IndexInformationProvider`: which scalar columns have an index (and whether the column is
boolean), which list columns have one, and `safe_coerce_scalar` to the type of a column. -/
structure Info (V : Type) where
  kind : Nat → Option Bool
  lists : Nat → Bool
  coerce : Nat → Option V → Option (Option V)
  ofBool : Bool → V

variable {V : Type}

/-- expression.rs:218-234. -/
def IxPlan.indexQuery (q : IxExpr V) : IxPlan V := ⟨some q, none⟩

/-- expression.rs:238-251 `maybe_not`; the panic for an empty node is `none` as well. -/
def IxPlan.maybeNot (p : IxPlan V) : Option (IxPlan V) :=
  match p.query, p.refine with
  | some _, some _ => none
  | some q, none => some ⟨some (.not q), none⟩
  | none, some r => some ⟨none, some (.not r)⟩
  | none, none => none

/-- expression.rs:257-279 `and`. -/
def IxPlan.and (a b : IxPlan V) : IxPlan V :=
  { query := match a.query, b.query with
      | some x, some y => some (.and x y)
      | some x, none => some x
      | none, some y => some y
      | none, none => none
    refine := match a.refine, b.refine with
      | some x, some y => some (.and x y)
      | some x, none => some x
      | none, some y => some y
      | none, none => none }

/-- expression.rs:287-322 `maybe_or`. -/
def IxPlan.maybeOr (a b : IxPlan V) : Option (IxPlan V) :=
  match a.query, b.query with
  | some x, some y =>
    match a.refine, b.refine with
    | none, none => some ⟨some (.or x y), none⟩
    | _, _ => none
  | _, _ => none

/-- expression.rs:324-335 `refine`. -/
def IxPlan.refineWith (p : IxPlan V) (e : Expr V) : IxPlan V :=
  match p.refine with
  | some r => ⟨p.query, some (.and r e)⟩
  | none => ⟨p.query, some e⟩

/-- expression.rs:438-455 `maybe_column`, `maybe_indexed_column`. -/
def indexedCol (I : Info V) : Tm V → Option (Nat × Bool)
  | .col c => (I.kind c).map (fun b => (c, b))
  | _ => none

/-- expression.rs:458-463 `maybe_scalar`. -/
def maybeScalar (I : Info V) (c : Nat) : Tm V → Option (Option V)
  | .lit w => I.coerce c w
  | _ => none

/-- expression.rs:466-479 `maybe_scalar_list`. -/
def maybeScalars (I : Info V) (c : Nat) : List (Tm V) → Option (List (Option V))
  | [] => some []
  | t :: ts => match maybeScalar I c t, maybeScalars I c ts with
    | some w, some ws => some (w :: ws)
    | _, _ => none

/-- The tail of several visitors: negate if asked to. -/
def negIf (neg : Bool) (p : IxPlan V) : Option (IxPlan V) := if neg then p.maybeNot else some p

/-- expression.rs:481-498 `visit_between` with 87-98. -/
def visitBetween (I : Info V) (t lo hi : Tm V) (neg : Bool) : Option (IxPlan V) :=
  match indexedCol I t with
  | none => none
  | some (c, _) =>
    match maybeScalar I c lo, maybeScalar I c hi with
    | some l, some h => negIf neg (.indexQuery (.query c (.range (.incl l) (.incl h))))
    | _, _ => none

/-- expression.rs:500-515 `visit_in_list` with 100-106. -/
def visitInList (I : Info V) (t : Tm V) (ws : List (Tm V)) (neg : Bool) : Option (IxPlan V) :=
  match indexedCol I t with
  | none => none
  | some (c, _) =>
    match maybeScalars I c ws with
    | some vs => negIf neg (.indexQuery (.query c (.isIn vs)))
    | none => none

/-- expression.rs:517-541 `visit_is_bool` and `visit_column`, with 108-113; only a column has an index. -/
def visitBool (I : Info V) (b : Bool) : Expr V → Option (IxPlan V)
  | .boolCol c => match I.kind c with
    | some true => some (.indexQuery (.query c (.equals (some (I.ofBool b)))))
    | _ => none
  | _ => none

/-- expression.rs:543-555 `visit_is_null` with 115-120. -/
def visitIsNull (I : Info V) (t : Tm V) (neg : Bool) : Option (IxPlan V) :=
  match indexedCol I t with
  | none => none
  | some (c, _) => negIf neg (.indexQuery (.query c .isNull))

/-- expression.rs:122-144 `visit_comparison` of the parser. -/
def cmpQuery (w : Option V) : Cmp → SQuery V
  | .lt => .range .unb (.excl w)
  | .le => .range .unb (.incl w)
  | .gt => .range (.excl w) .unb
  | .ge => .range (.incl w) .unb
  | .eq => .equals w
  | .ne => .equals w

/-- expression.rs:562-576 `visit_comparison` and 678-684 for `!=`: only a column on the left has an index. -/
def visitCmp (I : Info V) (op : Cmp) (l r : Tm V) : Option (IxPlan V) :=
  match indexedCol I l with
  | none => none
  | some (c, _) =>
    match maybeScalar I c r with
    | none => none
    | some w => negIf (op = .ne) (.indexQuery (.query c (cmpQuery w op)))

/-- expression.rs:578-628 `maybe_between`: operand, low and high. -/
def maybeBetween [DecidableEq V] : Expr V → Expr V → Option (Tm V × Tm V × Tm V)
  | .cmp .ge a b, .cmp .le c d =>
    if a = c then some (a, b, d) else if b = d then some (b, c, a) else none
  | .cmp .le a b, .cmp .ge c d =>
    if a = c then some (a, d, b) else if b = d then some (b, a, c) else none
  | _, _ => none

/-- expression.rs:481-715 `visit_node` with `visit_and` (630-655), `visit_or` (657-675), `visit_not` and
`visit_scalar_fn` (688-698, 163-208; the label list is taken as coerced). -/
def visit [DecidableEq V] (I : Info V) : Expr V → Option (IxPlan V)
  | .boolCol c => visitBool I true (.boolCol c)
  | .cmp op l r => visitCmp I op l r
  | .between t lo hi neg => visitBetween I t lo hi neg
  | .inList t ws neg => visitInList I t ws neg
  | .isNull t => visitIsNull I t false
  | .isNotNull t => visitIsNull I t true
  | .isTrue e => visitBool I true e
  | .isFalse e => visitBool I false e
  | .not e => match visit I e with
    | some p => p.maybeNot
    | none => none
  | .and l r =>
    match maybeBetween l r with
    | some (t, lo, hi) => visitBetween I t lo hi false
    | none =>
      match visit I l, visit I r with
      | some a, some b => some (a.and b)
      | some a, none => some (a.refineWith r)
      | none, some b => some (b.refineWith l)
      | none, none => none
  | .or l r =>
    match visit I l, visit I r with
    | some a, some b => a.maybeOr b
    | _, _ => none
  | .hasAll c ls => if I.lists c then some (.indexQuery (.labels c (.hasAll ls))) else none
  | .hasAny c ls => if I.lists c then some (.indexQuery (.labels c (.hasAny ls))) else none
  | .other _ => none

/-- expression.rs:725-730 `apply_scalar_indices`. -/
def applyIndices [DecidableEq V] (I : Info V) (e : Expr V) : IxPlan V :=
  match visit I e with
  | some p => p
  | none => ⟨none, some e⟩

/-- expression.rs:778-801 `create_filter_plan`, after the optimizer. -/
def filterPlan [DecidableEq V] (I : Info V) (useIndex : Bool) (e : Expr V) : IxPlan V :=
  if useIndex then applyIndices I e else ⟨none, some e⟩

/-- The loaded indices: what `search` of the index on a column returns (`none`: it panics or fails). -/
structure Indices (V : Type) where
  search : Nat → SQuery V → Option TreeMap
  labels : Nat → LQuery V → Option TreeMap

/-- expression.rs:391-418 `evaluate`. -/
def evaluate (X : Indices V) : IxExpr V → Option Mask
  | .not e => (evaluate X e).map RowSet.maskNot
  | .and l r => match evaluate X l, evaluate X r with
    | some a, some b => some (RowSet.maskAnd a b)
    | _, _ => none
  | .or l r => match evaluate X l, evaluate X r with
    | some a, some b => some (RowSet.maskOr a b)
    | _, _ => none
  | .query c q => (X.search c q).map (fun m => ⟨some m, none⟩)
  | .labels c q => (X.labels c q).map (fun m => ⟨some m, none⟩)

end Verif.Expr
