import Verif.Stats.Model

/-! # Statements about statistics and scans -/
namespace Verif.Stats

/-- The lexicographic order. -/
def LexLe : List Nat → List Nat → Prop
  | [], _ => True
  | _ :: _, [] => False
  | a :: as, b :: bs => a < b ∨ (a = b ∧ LexLe as bs)

/-- The order of the values of a type: total order for floats (NaN above infinity), bytes for strings. -/
def Val.Le : Val → Val → Prop
  | .int a, .int b => a ≤ b
  | .flt a, .flt b => a ≤ b
  | .bool a, .bool b => a = true → b = true
  | .bytes a, .bytes b => LexLe a b
  | _, _ => False

/-- The value lies in the interval; `none` is no bound. -/
def Between (lo hi : Option Val) (v : Val) : Prop := (∀ l, lo = some l → l.Le v) ∧ ∀ h, hi = some h → v.Le h

/-- What a guarantee says of a value. -/
def Guar.Holds : Guar → Option Val → Prop
  | .notNull lo hi, x => ∃ v, x = some v ∧ Between lo hi v
  | .null, x => x = none
  | .maybe lo hi, x => ∀ v, x = some v → Between lo hi v

/-- The values a type has. -/
def Kind.Has : Kind → Val → Prop
  | .int lo hi, v => ∃ i, v = .int i ∧ lo ≤ i ∧ i ≤ hi
  | .flt inf, v => 0 ≤ inf ∧ ∃ k, v = .flt k
  | .bool, v => ∃ b, v = .bool b
  | .utf8, v => ∃ l, v = .bytes l ∧ utf8Valid l = true
  | .binary, v => ∃ l, v = .bytes l ∧ ∀ b ∈ l, b < 256

/-- The arrays of a page have the type. -/
def HasKind (k : Kind) (arrays : List (List (Option Val))) : Prop := ∀ a ∈ arrays, ∀ v, some v ∈ a → k.Has v

/-- Every value of the page is as the guarantee drawn from its statistics says. -/
def Sound (k : Kind) (nullable : Bool) (arrays : List (List (Option Val))) : Prop :=
  ∃ s, collect k arrays = some s ∧ ∀ x ∈ arrays.flatten, (guarantee nullable arrays.flatten.length s).Holds x

/-- DataFusion simplifies soundly: for rows that are as guaranteed, the new predicate selects the same. -/
def SoundSimp (simp : List (Nat × Guar) → Expr → Option Expr) : Prop :=
  ∀ gs e e', simp gs e = some e' → ∀ row : Nat → Option Val, (∀ g ∈ gs, g.2.Holds (row g.1)) →
    (e'.eval row = some true ↔ e.eval row = some true)

/-- DataFusion evaluates a predicate on rows: one value for all of them, or one for each. -/
def Denotes (e : Expr) (rows : List Out) : Columnar → Prop
  | .scalar b => ∀ r ∈ rows, e.eval r.get = b
  | .array l => l = rows.map (fun r => e.eval r.get)

def Evaluates (evaluate : Expr → List Out → Columnar) : Prop := ∀ e rows, Denotes e rows (evaluate e rows)

/-- The row at an offset, as a scan without filter returns it. -/
def outRow (proj : List Nat) (withId withAddr : Bool) (p : Page) (o : Nat) : Out :=
  { rowid := if withId then some (some (p.rowid o)) else none
    addr := if withAddr then some (some (p.addr o)) else none
    vals := proj.map (fun f => (f, p.cell o f)) }

/-- The rows of a page that are not deleted and for which the predicate is true, in order. -/
def selected (pred : Expr) (p : Page) : List Nat :=
  (List.range p.size).filter (fun o => p.live o && decide (pred.eval (p.cell o) = some true))

/-- A page with the statistics its writer collected: for every field, the arrays it was written from. -/
structure WrittenPage where
  page : Page
  arrays : Nat → List (List (Option Val))
  hasStats : Bool

/-- The statistics stored with it.  `withStats` are the fields that have statistics (statistics.rs:592-613). -/
def WrittenPage.stats (kind : Nat → Kind) (withStats : Nat → Bool) (w : WrittenPage) : Option Stats :=
  if w.hasStats then some (fun f => if withStats f then collect (kind f) (w.arrays f) else none) else none

/-- The arrays hold the rows of the page, and have their types; only nullable fields have nulls. -/
structure WrittenPage.OK (kind : Nat → Kind) (nullable : Nat → Bool) (w : WrittenPage) : Prop where
  cells : ∀ f, (w.arrays f).flatten = (List.range w.page.size).map (fun o => w.page.cell o f)
  types : ∀ f, HasKind (kind f) (w.arrays f)
  nulls : ∀ f, nullable f = false → ∀ x ∈ (w.arrays f).flatten, x ≠ none

end Verif.Stats
