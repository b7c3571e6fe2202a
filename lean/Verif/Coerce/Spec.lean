import Verif.Coerce.Model

/-! What a literal means, and which values a type can hold; written without reference to the coercion. -/
namespace Verif.Coerce

/-- Values.  Numbers are in units of 2^-1074, times and times of day in nanoseconds, days in milliseconds. -/
inductive Val (S : Type) where
  | num (k : Int)
  | nan
  | inf (neg : Bool)
  | str (s : S)
  | bool (b : Bool)
  | time (ns : Int)
  | day (ms : Int)
  | clock (ns : Int)
  deriving DecidableEq, Repr

variable {S : Type}

/-- The value of a float. -/
def Fl.den : Fl → Val S
  | .nan => .nan
  | .inf b => .inf b
  | .fin k => .num k

/-- Nanoseconds per tick. -/
def TUnit.tick : TUnit → Int
  | .s => 1000000000
  | .ms => 1000000
  | .us => 1000
  | .ns => 1

/-- The value of a literal, `none` for NULL. -/
def Sv.den : Sv S → Option (Val S)
  | .int _ v => v.map (fun x => .num (x * 2 ^ 1074))
  | .f32 v => v.map Fl.den
  | .f64 v => v.map Fl.den
  | .utf8 v => v.map .str
  | .largeUtf8 v => v.map .str
  | .boolean v => v.map .bool
  | .null => none
  | .ts u v _ => v.map (fun x => .time (x * u.tick))
  | .date32 v => v.map (fun x => .day (x * 86400000))
  | .date64 v => v.map .day
  | .time32 ms v => v.map (fun x => .clock (x * if ms then 1000000 else 1000000000))
  | .time64 ns v => v.map (fun x => .clock (x * if ns then 1 else 1000))
  | .other => none

/-- A float with `p` binary digits, a multiple of `2 ^ q` and less than `2 ^ top` (units of 2^-1074). -/
def Fl.Typed (p q top : Nat) : Fl → Prop
  | .fin k => ∃ m e : Nat, k.natAbs = m * 2 ^ e ∧ m < 2 ^ p ∧ q ≤ e ∧ k.natAbs < 2 ^ top
  | _ => True

/-- Fits a signed integer of `w` bits. -/
def Signed (w : Nat) (v : Int) : Prop := -2 ^ (w - 1) ≤ v ∧ v < 2 ^ (w - 1)

/-- The content of the literal fits its type. -/
def Sv.Typed : Sv S → Prop
  | .int t v => ∀ x, v = some x → t.lo ≤ x ∧ x ≤ t.hi
  | .f32 v => ∀ x, v = some x → x.Typed 24 925 (128 + 1074)
  | .f64 v => ∀ x, v = some x → x.Typed 53 0 (1024 + 1074)
  | .ts _ v _ => ∀ x, v = some x → Signed 64 x
  | .date32 v => ∀ x, v = some x → Signed 32 x
  | .date64 v => ∀ x, v = some x → Signed 64 x
  | .time32 _ v => ∀ x, v = some x → Signed 32 x
  | .time64 _ v => ∀ x, v = some x → Signed 64 x
  | _ => True

/-- The type of a literal, up to the time zone; NULL has every type. -/
def Sv.HasTy : Sv S → Ty → Prop
  | .int s _, .int t => s = t
  | .f32 _, .f32 => True
  | .f64 _, .f64 => True
  | .utf8 _, .utf8 => True
  | .largeUtf8 _, .largeUtf8 => True
  | .boolean _, .boolean => True
  | .null, _ => True
  | .ts u _ _, .ts u' _ => u = u'
  | .date32 _, .date32 => True
  | .date64 _, .date64 => True
  | .time32 a _, .time32 b => a = b
  | .time64 a _, .time64 b => a = b
  | _, _ => False

/-- The type can hold this value. -/
def Holds (ty : Ty) (x : Option (Val S)) : Prop := ∃ w : Sv S, w.HasTy ty ∧ w.Typed ∧ w.den = x

end Verif.Coerce
