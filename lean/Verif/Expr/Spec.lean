import Verif.Expr.Model
import Verif.Scalar.PropsSearch

/-! What a filter means: three-valued SQL logic (`none` is NULL); a row passes if the filter is true. -/
namespace Verif.Expr
open Verif
open Verif.RowSet (TreeMap Mask)
open Verif.Scalar (LinOrd Bd LQuery)

/-- One row of the table. -/
structure Env (V : Type) where
  val : Nat → Option V
  list : Nat → Option (List (Option V))
  other : Nat → Option V
  cond : Nat → Option Bool

variable {V : Type}

/-- The value of a term. -/
def Tm.eval (env : Env V) : Tm V → Option V
  | .col c => env.val c
  | .lit w => w
  | .other k => env.other k

/-- SQL `NOT`. -/
def not3 : Option Bool → Option Bool
  | some b => some (!b)
  | none => none

/-- SQL `AND`. -/
def and3 : Option Bool → Option Bool → Option Bool
  | some false, _ => some false
  | _, some false => some false
  | some true, some true => some true
  | _, _ => none

/-- SQL `OR`. -/
def or3 : Option Bool → Option Bool → Option Bool
  | some true, _ => some true
  | _, some true => some true
  | some false, some false => some false
  | _, _ => none

/-- A comparison of two values. -/
def cmpVal [LinOrd V] [DecidableEq V] (a b : V) : Cmp → Bool
  | .lt => LinOrd.le a b && a != b
  | .le => LinOrd.le a b
  | .gt => LinOrd.le b a && a != b
  | .ge => LinOrd.le b a
  | .eq => a == b
  | .ne => a != b

/-- SQL comparison: NULL if one side is NULL. -/
def cmp3 [LinOrd V] [DecidableEq V] (op : Cmp) : Option V → Option V → Option Bool
  | some a, some b => some (cmpVal a b op)
  | _, _ => none

/-- SQL `IN`: the disjunction of the equations. -/
def in3 [LinOrd V] [DecidableEq V] (v : Option V) : List (Option V) → Option Bool
  | [] => some false
  | w :: ws => or3 (cmp3 .eq v w) (in3 v ws)

/-- Possibly negated. -/
def neg3 (neg : Bool) (b : Option Bool) : Option Bool := if neg then not3 b else b

/-- The value of a condition.  `array_has_all`/`array_has_any` of a NULL list is NULL. -/
def Expr.eval [LinOrd V] [DecidableEq V] (ofBool : Bool → V) (env : Env V) : Expr V → Option Bool
  | .boolCol c => (env.val c).map (fun v => v == ofBool true)
  | .cmp op l r => cmp3 op (l.eval env) (r.eval env)
  | .between t lo hi neg =>
    neg3 neg (and3 (cmp3 .ge (t.eval env) (lo.eval env)) (cmp3 .le (t.eval env) (hi.eval env)))
  | .inList t ws neg => neg3 neg (in3 (t.eval env) (ws.map (Tm.eval env)))
  | .isNull t => some (t.eval env == none)
  | .isNotNull t => some (t.eval env != none)
  | .isTrue e => some (e.eval ofBool env == some true)
  | .isFalse e => some (e.eval ofBool env == some false)
  | .not e => not3 (e.eval ofBool env)
  | .and l r => and3 (l.eval ofBool env) (r.eval ofBool env)
  | .or l r => or3 (l.eval ofBool env) (r.eval ofBool env)
  | .hasAll c ls => (env.list c).map (fun items => ls.all (items.contains ·))
  | .hasAny c ls => (env.list c).map (fun items => ls.any (items.contains ·))
  | .other k => env.cond k

/-- A plan passes a row: the index query selects its id and the refine filter is true. -/
def Passes [LinOrd V] [DecidableEq V] (ofBool : Bool → V) (X : Indices V) (p : IxPlan V) (i : Nat) (env : Env V) :
    Prop :=
  (∀ q, p.query = some q → ∃ m, evaluate X q = some m ∧ RowSet.selected m i = true) ∧
  ∀ r, p.refine = some r → r.eval ofBool env = some true

/-- What a query on a scalar column asks for; a range with a NULL bound has no meaning of its own. -/
def SQuery.toScalar : SQuery V → Option (Scalar.Query V)
  | .range lo hi =>
    match lo, hi with
    | .unb, .incl (some u) => some (.range .unb (.incl u))
    | .unb, .excl (some u) => some (.range .unb (.excl u))
    | .incl (some l), .unb => some (.range (.incl l) .unb)
    | .excl (some l), .unb => some (.range (.excl l) .unb)
    | .incl (some l), .incl (some u) => some (.range (.incl l) (.incl u))
    | .incl (some l), .excl (some u) => some (.range (.incl l) (.excl u))
    | .excl (some l), .incl (some u) => some (.range (.excl l) (.incl u))
    | .excl (some l), .excl (some u) => some (.range (.excl l) (.excl u))
    | .unb, .unb => some (.range .unb .unb)
    | _, _ => none
  | .isIn ws => some (.isIn ws)
  | .equals w => some (.equals w)
  | .isNull => some .isNull

/-- A table: rows with their ids. -/
abbrev Table (V : Type) := List (Nat × Env V)

/-- The indices answer exactly (this is C37), with sets that list rows one by one. -/
structure IndexOK [LinOrd V] (X : Indices V) (T : Table V) : Prop where
  scalar : ∀ c q q' m, q.toScalar = some q' → X.search c q = some m →
    Scalar.Plain m ∧ Scalar.Exact (T.map (fun r => (r.2.val c, r.1))) q' m
  lists : ∀ c q m, X.labels c q = some m →
    Scalar.Plain m ∧ ∀ i, i < 2 ^ 64 → (RowSet.contains m i = true ↔ ∃ env, (i, env) ∈ T ∧ Scalar.LSat q (env.list c))

/-- Literals keep their value when they are coerced to the type of a column, and boolean columns hold booleans. -/
structure InfoOK (I : Info V) (env : Env V) : Prop where
  coerce : ∀ c w w', I.coerce c w = some w' → w' = w
  bools : I.ofBool true ≠ I.ofBool false
  typed : ∀ c v, I.kind c = some true → env.val c = some v → ∃ b, v = I.ofBool b

/-- No literal of the term is NULL. -/
def Tm.NotNull : Tm V → Prop
  | .lit w => w ≠ none
  | _ => True

/-- The condition has no NULL literal. -/
def Expr.LitOK : Expr V → Prop
  | .cmp _ l r => l.NotNull ∧ r.NotNull
  | .between t lo hi _ => t.NotNull ∧ lo.NotNull ∧ hi.NotNull
  | .inList t ws _ => t.NotNull ∧ ∀ w ∈ ws, w.NotNull
  | .isTrue e => e.LitOK
  | .isFalse e => e.LitOK
  | .not e => e.LitOK
  | .and l r => l.LitOK ∧ r.LitOK
  | .or l r => l.LitOK ∧ r.LitOK
  | .hasAll _ ls => none ∉ ls
  | .hasAny _ ls => none ∉ ls
  | _ => True

/-- Whatever is negated in the condition is not NULL in this row. -/
def Expr.NegOK [LinOrd V] [DecidableEq V] (ofBool : Bool → V) (env : Env V) : Expr V → Prop
  | .cmp .ne l r => l.eval env ≠ none ∧ r.eval env ≠ none
  | .between t lo hi true => (Expr.between t lo hi false).eval ofBool env ≠ none
  | .inList t ws true => (Expr.inList t ws false).eval ofBool env ≠ none
  | .not e => e.eval ofBool env ≠ none ∧ e.NegOK ofBool env
  | .isTrue e => e.NegOK ofBool env
  | .isFalse e => e.NegOK ofBool env
  | .and l r => l.NegOK ofBool env ∧ r.NegOK ofBool env
  | .or l r => l.NegOK ofBool env ∧ r.NegOK ofBool env
  | _ => True

/-- The condition negates nothing. -/
def Expr.NegFree : Expr V → Prop
  | .cmp op _ _ => op ≠ .ne
  | .between _ _ _ neg => neg = false
  | .inList _ _ neg => neg = false
  | .isNotNull _ => False
  | .not _ => False
  | .and l r => l.NegFree ∧ r.NegFree
  | .or l r => l.NegFree ∧ r.NegFree
  | .isTrue e => e.NegFree
  | .isFalse e => e.NegFree
  | _ => True

/-- The shape of the mask of an index query: an allow list only, a block list only, or both.  `none`: the mask is not
reliable (`NOT` of both, `OR` of different shapes; see C04). -/
def shape : IxExpr V → Option (Bool × Bool)
  | .query _ _ => some (true, false)
  | .labels _ _ => some (true, false)
  | .not e => match shape e with
    | some (true, false) => some (false, true)
    | some (false, true) => some (true, false)
    | _ => none
  | .and l r => match shape l, shape r with
    | some (a, b), some (c, d) => some (a || c, b || d)
    | _, _ => none
  | .or l r => match shape l, shape r with
    | some (true, false), some (true, false) => some (true, false)
    | some (false, true), some (false, true) => some (false, true)
    | _, _ => none

/-- The masks of this index query are reliable. -/
def Reliable (q : IxExpr V) : Prop := shape q ≠ none

end Verif.Expr
