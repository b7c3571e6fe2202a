/-! Model of `safe_coerce_scalar` (rust/lance-datafusion/src/expr.rs:13-400): a literal of a filter is turned into a
literal of the type of the column that it is compared with.

Numbers are `Int`.  A finite float is a multiple of 2^-1074 (the least positive `f64`) and is given by that multiple;
the sign of zero is left out.  Strings are any type `S`.  List literals (arrow's `cast` kernel) and all other types
(decimals, binary, ...: `_ => None`) are left out.  Overflow of `*` wraps, as in a release build. -/
namespace Verif.Coerce

/-- The integer types. -/
inductive IntTy where
  | i8 | i16 | i32 | i64 | u8 | u16 | u32 | u64
  deriving DecidableEq, Repr

/-- Least value. -/
def IntTy.lo : IntTy → Int
  | .i8 => -2 ^ 7
  | .i16 => -2 ^ 15
  | .i32 => -2 ^ 31
  | .i64 => -2 ^ 63
  | _ => 0

/-- Greatest value. -/
def IntTy.hi : IntTy → Int
  | .i8 => 2 ^ 7 - 1
  | .i16 => 2 ^ 15 - 1
  | .i32 => 2 ^ 31 - 1
  | .i64 => 2 ^ 63 - 1
  | .u8 => 2 ^ 8 - 1
  | .u16 => 2 ^ 16 - 1
  | .u32 => 2 ^ 32 - 1
  | .u64 => 2 ^ 64 - 1

/-- arrow `TimeUnit`. -/
inductive TUnit where
  | s | ms | us | ns
  deriving DecidableEq, Repr

/-- Floats. -/
inductive Fl where
  | nan
  | inf (neg : Bool)
  | fin (k : Int)
  deriving DecidableEq, Repr

/-- arrow `DataType`; a time zone is a number. -/
inductive Ty where
  | int (t : IntTy)
  | f32 | f64
  | utf8 | largeUtf8
  | boolean
  | ts (u : TUnit) (tz : Option Nat)
  | date32 | date64
  | time32 (ms : Bool)
  | time64 (ns : Bool)
  | other
  deriving DecidableEq, Repr

/-- datafusion `ScalarValue`; `none` is NULL of the type. -/
inductive Sv (S : Type) where
  | int (t : IntTy) (v : Option Int)
  | f32 (v : Option Fl)
  | f64 (v : Option Fl)
  | utf8 (v : Option S)
  | largeUtf8 (v : Option S)
  | boolean (v : Option Bool)
  | null
  | ts (u : TUnit) (v : Option Int) (tz : Option Nat)
  | date32 (v : Option Int)
  | date64 (v : Option Int)
  | time32 (ms : Bool) (v : Option Int)
  | time64 (ns : Bool) (v : Option Int)
  | other
  deriving DecidableEq, Repr

/-- `try_from` between integer types. -/
def tryInt (t : IntTy) (v : Int) : Option Int := if t.lo ≤ v ∧ v ≤ t.hi then some v else none

/-- expr.rs:21-197: the pairs for which the code uses `from`/`into`, which cannot fail. -/
def wider : IntTy → IntTy → Bool
  | .i8, .i16 => true
  | .i8, .i32 => true
  | .i8, .i64 => true
  | .i16, .i32 => true
  | .i16, .i64 => true
  | .i32, .i64 => true
  | .u8, .i16 => true
  | .u8, .i32 => true
  | .u8, .i64 => true
  | .u8, .u16 => true
  | .u8, .u32 => true
  | .u8, .u64 => true
  | .u16, .i32 => true
  | .u16, .i64 => true
  | .u16, .u32 => true
  | .u16, .u64 => true
  | .u32, .i64 => true
  | .u32, .u64 => true
  | _, _ => false

/-- Number of binary digits, by `fuel` halvings. -/
def bits (fuel a : Nat) : Nat :=
  match fuel with
  | 0 => 0
  | f + 1 => if a = 0 then 0 else bits f (a / 2) + 1

/-- Round the natural number `a` to a multiple of `2 ^ s`, to even at half. -/
def roundNat (s a : Nat) : Nat :=
  let q := a / 2 ^ s
  let r := a % 2 ^ s
  (if 2 * r > 2 ^ s ∨ (2 * r = 2 ^ s ∧ q % 2 = 1) then q + 1 else q) * 2 ^ s

/-- IEEE rounding of the natural number `a` to `p` significant digits, no finer than `2 ^ q`. -/
def roundTo (p q a : Nat) : Nat := roundNat (max q (bits 4096 a - p)) a

/-- The same with a sign. -/
def roundInt (p q : Nat) (k : Int) : Int := if k < 0 then -(roundTo p q k.natAbs : Int) else roundTo p q k.natAbs

/-- `v as f64`, `f64::from(v)`. -/
def toF64 (v : Int) : Fl := .fin (roundInt 53 0 v * 2 ^ 1074)

/-- `v as f32`, `f32::from(v)`. -/
def toF32 (v : Int) : Fl := .fin (roundInt 24 0 v * 2 ^ 1074)

/-- `v as f32` of an `f64`: 24 digits, multiples of 2^-149, infinite from 2^128. -/
def narrow : Fl → Fl
  | .fin k =>
    let r := roundInt 24 925 k
    if r.natAbs < 2 ^ (128 + 1074) then .fin r else .inf (decide (r < 0))
  | x => x

/-- Ticks per second. -/
def TUnit.perSec : TUnit → Int
  | .s => 1
  | .ms => 1000
  | .us => 1000000
  | .ns => 1000000000

/-- `checked_mul` of `i64`. -/
def checkedMul (v f : Int) : Option Int := tryInt .i64 (v * f)

/-- `*` of `i64` and `i32` and `as i32`: wrapping. -/
def wrap (w : Nat) (v : Int) : Int := (v + 2 ^ (w - 1)) % 2 ^ w - 2 ^ (w - 1)

/-- expr.rs:249-299, timestamps: the same unit keeps the literal as it is (with its own time zone); a finer unit is a
checked product, a coarser one a quotient rounded to zero. -/
def coerceTs {S : Type} (u : TUnit) (v : Option Int) (tz : Option Nat) (u' : TUnit) (tz' : Option Nat) : Option (Sv S) :=
  if u = u' then some (.ts u v tz)
  else if u.perSec < u'.perSec then
    (v.bind (fun x => checkedMul x (u'.perSec / u.perSec))).map (fun x => .ts u' (some x) tz')
  else v.map (fun x => .ts u' (some (x.tdiv (u.perSec / u'.perSec))) tz')

/-- expr.rs:13. -/
def msPerDay : Int := 86400000

/-- expr.rs:19-400 `safe_coerce_scalar`; `none` is `None`. -/
def coerce {S : Type} : Sv S → Ty → Option (Sv S)
  | .int s v, .int t =>
    if s = t then some (.int s v)
    else if wider s t then v.map (fun x => .int t (some x))
    else v.bind (fun x => (tryInt t x).map (fun y => .int t (some y)))
  | .int _ v, .f32 => v.map (fun x => .f32 (some (toF32 x)))
  | .int _ v, .f64 => v.map (fun x => .f64 (some (toF64 x)))
  | .f32 v, .f32 => some (.f32 v)
  | .f32 v, .f64 => v.map (fun x => .f64 (some x))
  | .f64 v, .f32 => v.map (fun x => .f32 (some (narrow x)))
  | .f64 v, .f64 => some (.f64 v)
  | .utf8 v, .utf8 => some (.utf8 v)
  | .utf8 v, .largeUtf8 => some (.largeUtf8 v)
  | .largeUtf8 v, .utf8 => some (.utf8 v)
  | .largeUtf8 v, .largeUtf8 => some (.largeUtf8 v)
  | .boolean v, .boolean => some (.boolean v)
  | .null, _ => some .null
  | .ts u v tz, .ts u' tz' => coerceTs u v tz u' tz'
  | .date32 v, .date32 => some (.date32 v)
  | .date32 v, .date64 => some (.date64 (v.map (fun x => wrap 64 (x * msPerDay))))
  | .date64 v, .date32 => some (.date32 (v.map (fun x => wrap 32 (x.tdiv msPerDay))))
  | .date64 v, .date64 => some (.date64 v)
  | .time32 false v, .time32 false => some (.time32 false v)
  | .time32 false v, .time32 true => v.map (fun x => .time32 true (some (wrap 32 (x * 1000))))
  | .time32 false v, .time64 false => v.map (fun x => .time64 false (some (wrap 64 (x * 1000000))))
  | .time32 false v, .time64 true => v.map (fun x => .time64 true (some (wrap 64 (x * 1000000000))))
  | .time32 true v, .time32 false => v.map (fun x => .time32 false (some (x.tdiv 1000)))
  | .time32 true v, .time32 true => some (.time32 true v)
  | .time32 true v, .time64 false => v.map (fun x => .time64 false (some (wrap 64 (x * 1000))))
  | .time32 true v, .time64 true => v.map (fun x => .time64 true (some (wrap 64 (x * 1000000))))
  | .time64 false v, .time32 false => v.map (fun x => .time32 false (some (wrap 32 (x.tdiv 1000000))))
  | .time64 false v, .time32 true => v.map (fun x => .time32 true (some (wrap 32 (x.tdiv 1000))))
  | .time64 false v, .time64 false => some (.time64 false v)
  | .time64 false v, .time64 true => v.map (fun x => .time64 true (some (wrap 64 (x * 1000))))
  | .time64 true v, .time32 false => v.map (fun x => .time32 false (some (wrap 32 (x.tdiv 1000000000))))
  | .time64 true v, .time32 true => v.map (fun x => .time32 true (some (wrap 32 (x.tdiv 1000000))))
  | .time64 true v, .time64 false => v.map (fun x => .time64 false (some (x.tdiv 1000)))
  | .time64 true v, .time64 true => some (.time64 true v)
  | _, _ => none

end Verif.Coerce
