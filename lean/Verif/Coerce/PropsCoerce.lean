import Verif.Coerce.LemmasHolds
import Verif.Expr.PropsFilter

/-! C61: the literal of a filter keeps its value when it is turned into the type of the column. -/
namespace Verif.Coerce

/-- C61 in full: whenever the coercion gives a literal, this has the type of the column and the value of the literal
it was made from. -/
def C61_coerce_statement : Prop :=
  ∀ (S : Type) (w w' : Sv S) (ty : Ty), w.Typed → coerce w ty = some w' → w'.den = w.den ∧ w'.HasTy ty

/-! ### Violations -/

/-- 0.5 s becomes 0 s. -/
theorem C61_coerce_violated : ¬ C61_coerce_statement := by
  intro h
  have := (h Nat (.ts .ms (some 500) none) (.ts .s (some 0) none) (.ts .s none)
    (by intro x hx; cases hx; exact ⟨by decide, by decide⟩) (by decide)).1
  revert this
  decide

/-- A row at second 0 satisfies `t < 0.5 s`, but not the filter with the coerced literal; it does not satisfy
`t = 0.5 s`, but the one with the coerced literal. -/
theorem C61_timestamp_filter_violated :
    ∃ (v v' x : Int), coerce (.ts .ms (some v) none : Sv Nat) (.ts .s none) = some (.ts .s (some v') none) ∧
      (x * 1000 < v ∧ ¬ x < v') ∧ (x * 1000 ≠ v ∧ x = v') :=
  ⟨500, 0, 0, by decide, by decide, by decide⟩

/-- A date with a year far in the future becomes another date: the number of days is cut to 32 bits. -/
theorem C61_date_violated :
    ∃ w w' : Sv Nat, w.Typed ∧ coerce w .date32 = some w' ∧ w'.den = some (.day 0) ∧
      w.den = some (.day (2 ^ 32 * 86400000)) :=
  ⟨.date64 (some (2 ^ 32 * 86400000)), .date32 (some 0),
    by intro x hx; cases hx; exact ⟨by decide, by decide⟩, by decide, by decide, by decide⟩

/-- 2^53 + 1 compared with a column of doubles becomes 2^53, and 2^24 + 1 with a column of floats 2^24. -/
theorem C61_float_violated :
    coerce (.int .i64 (some (2 ^ 53 + 1)) : Sv Nat) .f64 = some (.f64 (some (.fin (2 ^ 53 * 2 ^ 1074)))) ∧
    coerce (.int .i64 (some (2 ^ 24 + 1)) : Sv Nat) .f32 = some (.f32 (some (.fin (2 ^ 24 * 2 ^ 1074)))) := by
  refine ⟨?_, ?_⟩ <;> decide +kernel

/-- A double that is too large for a float column becomes infinite: `x < 1e300` is then `x < inf`. -/
theorem C61_float_overflow_violated :
    ∃ k : Int, (Fl.fin k).Typed 53 0 (1024 + 1074) ∧
      coerce (.f64 (some (.fin k)) : Sv Nat) .f32 = some (.f32 (some (.inf false))) := by
  refine ⟨2 ^ 2000, ⟨1, 2000, by rw [Int.natAbs_pow]; simp, by decide, Nat.zero_le _, ?_⟩, by decide +kernel⟩
  rw [Int.natAbs_pow]
  exact Nat.pow_lt_pow_right (by decide) (by decide)

/-- With the same unit the literal keeps its own time zone: its type is not that of the column. -/
theorem C61_timezone_violated :
    ∃ (w : Sv Nat) (u : TUnit) (tz tz' : Option Nat) (v : Int), tz ≠ tz' ∧ w = .ts u (some v) tz' ∧
      coerce w (.ts u tz) = some w :=
  ⟨_, .s, some 1, none, 5, by decide, rfl, by decide⟩

/-! ### What holds -/

variable {S : Type}

theorem den_none {w w' : Sv S} {ty : Ty} (hn : w.den = none) (h : coerce w ty = some w') :
    w'.den = none ∧ w'.HasTy ty := by
  cases w with
  | int s v =>
    cases v with
    | some x => cases hn
    | none =>
      cases ty with
      | int t =>
        simp only [coerce] at h
        split at h
        · cases h; rename_i hst; exact ⟨rfl, hst⟩
        · split at h <;> cases h
      | _ => cases h
  | f32 v =>
    cases v with
    | some x => cases hn
    | none => cases ty <;> cases h; exact ⟨rfl, trivial⟩
  | f64 v =>
    cases v with
    | some x => cases hn
    | none => cases ty <;> cases h; exact ⟨rfl, trivial⟩
  | utf8 v =>
    cases v with
    | some x => cases hn
    | none => cases ty <;> cases h <;> exact ⟨rfl, trivial⟩
  | largeUtf8 v =>
    cases v with
    | some x => cases hn
    | none => cases ty <;> cases h <;> exact ⟨rfl, trivial⟩
  | boolean v =>
    cases v with
    | some x => cases hn
    | none => cases ty <;> cases h; exact ⟨rfl, trivial⟩
  | null => cases ty <;> cases h <;> exact ⟨rfl, trivial⟩
  | ts u v tz =>
    cases v with
    | some x => cases hn
    | none =>
      cases ty with
      | ts u' tz' =>
        simp only [coerce, coerceTs] at h
        split at h
        · cases h; rename_i hst; exact ⟨rfl, hst⟩
        · split at h <;> cases h
      | _ => cases h
  | date32 v =>
    cases v with
    | some x => cases hn
    | none => cases ty <;> cases h <;> exact ⟨rfl, trivial⟩
  | date64 v =>
    cases v with
    | some x => cases hn
    | none => cases ty <;> cases h <;> exact ⟨rfl, trivial⟩
  | time32 b v =>
    cases v with
    | some x => cases hn
    | none =>
      cases ty with
      | time32 b' => cases b <;> cases b' <;> cases h <;> exact ⟨rfl, rfl⟩
      | time64 b' => cases b <;> cases b' <;> cases h
      | _ => cases b <;> cases h
  | time64 b v =>
    cases v with
    | some x => cases hn
    | none =>
      cases ty with
      | time32 b' => cases b <;> cases b' <;> cases h
      | time64 b' => cases b <;> cases b' <;> cases h <;> exact ⟨rfl, rfl⟩
      | _ => cases b <;> cases h
  | other => cases ty <;> cases h

/-- A value that the type of the column can hold keeps its value and gets that type (up to the time zone).
Missing: values that the type cannot hold are not always refused. -/
theorem C61_coerce_partial (w w' : Sv S) (ty : Ty) (hw : w.Typed) (hh : Holds ty w.den) (h : coerce w ty = some w') :
    w'.den = w.den ∧ w'.HasTy ty := by
  cases hd : w.den with
  | none => exact den_none hd h
  | some y =>
    by_cases hf : FloatToInt w ty
    · cases w <;> cases ty <;> first | exact hf.elim | cases h
    · rw [hd] at hh
      obtain ⟨w'', h1, h2, h3⟩ := keep hw hd hh hf
      rw [h] at h1; cases h1
      exact ⟨h2, h3⟩

/-- Such a value is not refused, unless it is a float for an integer column. -/
theorem C61_accepts (w : Sv S) (ty : Ty) (hw : w.Typed) (hn : w.den ≠ none) (hh : Holds ty w.den)
    (hf : ¬ FloatToInt w ty) : ∃ w', coerce w ty = some w' ∧ w'.den = w.den ∧ w'.HasTy ty := by
  obtain ⟨y, hy⟩ := Option.ne_none_iff_exists'.1 hn
  rw [hy] at hh ⊢
  exact keep hw hy hh hf

/-- Integers: taken exactly if the value is in the range of the column type, with the same value. -/
theorem C61_integers (s t : IntTy) (v : Int) (hv : s.lo ≤ v ∧ v ≤ s.hi) (w' : Sv S) :
    coerce (.int s (some v)) (.int t) = some w' ↔ (t.lo ≤ v ∧ v ≤ t.hi) ∧ w' = .int t (some v) := by
  simp only [coerce]
  by_cases hst : s = t
  · subst hst
    rw [if_pos rfl]
    simp only [Option.some.injEq]
    exact ⟨fun h => ⟨hv, h.symm⟩, fun h => h.2.symm⟩
  · rw [if_neg hst]
    by_cases hwd : wider s t = true
    · rw [if_pos hwd]
      simp only [Option.map_some, Option.some.injEq]
      exact ⟨fun h => ⟨wider_ok hwd v hv, h.symm⟩, fun h => h.2.symm⟩
    · rw [if_neg hwd]
      simp only [Option.bind_some, tryInt]
      by_cases hr : t.lo ≤ v ∧ v ≤ t.hi
      · rw [if_pos hr]
        simp only [Option.map_some, Option.some.injEq]
        exact ⟨fun h => ⟨hr, h.symm⟩, fun h => h.2.symm⟩
      · rw [if_neg hr]
        simp [hr]

/-- Timestamps in a finer unit: taken exactly if the result fits 64 bits, with the same value. -/
theorem C61_timestamp_finer (u u' : TUnit) (tz tz' : Option Nat) (v : Int) (hu : u'.tick < u.tick) :
    (coerce (.ts u (some v) tz : Sv S) (.ts u' tz') = none ↔ ¬ Signed 64 (v * (u.tick / u'.tick))) ∧
    ∀ w', coerce (.ts u (some v) tz : Sv S) (.ts u' tz') = some w' → w'.den = some (.time (v * u.tick)) := by
  have hp : u ≠ u' ∧ u.perSec < u'.perSec ∧ u'.perSec / u.perSec = u.tick / u'.tick ∧
      u.tick = u'.tick * (u.tick / u'.tick) := by
    revert hu
    cases u <;> cases u' <;> decide
  obtain ⟨h1, h2, h3, h4⟩ := hp
  simp only [coerce, coerceTs]
  rw [if_neg h1, if_pos h2, h3]
  by_cases hs : Signed 64 (v * (u.tick / u'.tick))
  · simp only [Option.bind_some, checkedMul, tryInt64 hs, Option.map_some]
    refine ⟨by simp [hs], ?_⟩
    intro w' hw'
    cases hw'
    simp only [Sv.den, Option.map_some]
    have : v * (u.tick / u'.tick) * u'.tick = v * u.tick := by
      rw [Int.mul_assoc, Int.mul_comm _ u'.tick, ← h4]
    rw [this]
  · have : tryInt .i64 (v * (u.tick / u'.tick)) = none := by
      unfold tryInt
      rw [if_neg]
      intro hc
      apply hs
      unfold Signed
      simp only [IntTy.lo, IntTy.hi] at hc
      omega
    simp only [Option.bind_some, checkedMul, this, Option.map_none]
    exact ⟨by simp [hs], fun w' hw' => by cases hw'⟩

/-- Timestamps in a coarser unit: the comparisons that are right all the same.  After 1970 these are `<=` and `>`,
before 1970 `>=` and `<`. -/
theorem C61_timestamp_coarser_partial (v f x : Int) (hf : 0 < f) :
    (0 ≤ v → ((x ≤ v.tdiv f ↔ x * f ≤ v) ∧ (v.tdiv f < x ↔ v < x * f))) ∧
    (v ≤ 0 → ((v.tdiv f ≤ x ↔ v ≤ x * f) ∧ (x < v.tdiv f ↔ x * f < v))) := by
  refine ⟨fun hv => ?_, fun hv => ?_⟩
  · rw [Int.tdiv_eq_ediv_of_nonneg hv]
    have h1 : x ≤ v / f ↔ x * f ≤ v := Int.le_ediv_iff_mul_le hf
    exact ⟨h1, by omega⟩
  · have h0 : v.tdiv f = -((-v) / f) := by
      have := Int.neg_tdiv (a := -v) (b := f)
      rw [Int.neg_neg] at this
      rw [this, Int.tdiv_eq_ediv_of_nonneg (by omega)]
    have h1 : -x ≤ (-v) / f ↔ -x * f ≤ -v := Int.le_ediv_iff_mul_le hf
    rw [Int.neg_mul] at h1
    rw [h0]
    constructor <;> omega

/-- Coercing twice is the same as once (the planner coerces, and the index parser again). -/
theorem C61_idempotent (w w' : Sv S) (ty : Ty) (h : coerce w ty = some w') : coerce w' ty = some w' := by
  have hty : w'.HasTy ty := by
    cases w with
    | int s v =>
      cases ty with
      | int t =>
        simp only [coerce] at h
        split at h
        · cases h; rename_i hst; exact hst
        · split at h
          · cases v <;> cases h; rfl
          · cases v with
            | none => cases h
            | some x =>
              simp only [Option.bind_some, Option.map_eq_some_iff] at h
              obtain ⟨_, _, rfl⟩ := h
              rfl
      | f32 => cases v <;> cases h; trivial
      | f64 => cases v <;> cases h; trivial
      | _ => cases h
    | ts u v tz =>
      cases ty with
      | ts u' tz' =>
        simp only [coerce, coerceTs] at h
        split at h
        · cases h; rename_i hst; exact hst
        · split at h
          · cases v with
            | none => cases h
            | some x =>
              simp only [Option.map_eq_some_iff] at h
              obtain ⟨_, _, rfl⟩ := h
              rfl
          · cases v <;> cases h; rfl
      | _ => cases h
    | f32 v => cases ty <;> first | cases h; trivial | (cases v <;> cases h; trivial) | cases h
    | f64 v => cases ty <;> first | cases h; trivial | (cases v <;> cases h; trivial) | cases h
    | utf8 v => cases ty <;> cases h <;> trivial
    | largeUtf8 v => cases ty <;> cases h <;> trivial
    | boolean v => cases ty <;> cases h <;> trivial
    | null => cases ty <;> cases h <;> trivial
    | date32 v => cases ty <;> cases h <;> trivial
    | date64 v => cases ty <;> cases h <;> trivial
    | time32 b v =>
      cases ty with
      | time32 b' => cases b <;> cases b' <;> first | cases h; rfl | (cases v <;> cases h; rfl)
      | time64 b' => cases b <;> cases b' <;> (cases v <;> cases h; rfl)
      | _ => cases b <;> cases h
    | time64 b v =>
      cases ty with
      | time32 b' => cases b <;> cases b' <;> (cases v <;> cases h; rfl)
      | time64 b' => cases b <;> cases b' <;> first | cases h; rfl | (cases v <;> cases h; rfl)
      | _ => cases b <;> cases h
    | other => cases ty <;> cases h
  cases w' with
  | int s v =>
    cases ty <;> first | exact hty.elim | skip
    have e : s = _ := hty
    simp only [coerce]; rw [if_pos e]
  | ts u v tz =>
    cases ty <;> first | exact hty.elim | skip
    have e : u = _ := hty
    simp only [coerce, coerceTs]; rw [if_pos e]
  | time32 b v =>
    cases ty <;> first | exact hty.elim | skip
    cases hty; cases b <;> rfl
  | time64 b v =>
    cases ty <;> first | exact hty.elim | skip
    cases hty; cases b <;> rfl
  | other => cases ty <;> exact hty.elim
  | _ => cases ty <;> first | exact hty.elim | rfl

/-! ### Use in C39 -/

/-- Integer literals of type `s` in filters on integer columns. -/
def intCoerce (s : IntTy) (types : Nat → IntTy) (c : Nat) (w : Option Int) : Option (Option Int) :=
  match coerce (.int s w : Sv Nat) (.int (types c)) with
  | some (.int _ v) => some v
  | _ => none

/-- For integers the coercion meets the assumption that C39 makes about it. -/
theorem C61_feeds_C39 (s : IntTy) (types : Nat → IntTy) (c : Nat) (w w' : Option Int)
    (h : intCoerce s types c w = some w') : w' = w := by
  unfold intCoerce at h
  cases w with
  | none =>
    simp only [coerce] at h
    split at h
    · rename_i t v heq
      split at heq
      · cases heq; cases h; rfl
      · split at heq <;> cases heq
    · cases h
  | some x =>
    simp only [coerce] at h
    split at h
    · rename_i t v heq
      split at heq
      · cases heq; cases h; rfl
      · split at heq
        · cases heq; cases h; rfl
        · simp only [Option.bind_some, tryInt] at heq
          split at heq <;> cases heq
          cases h; rfl
    · cases h

/-! ### Cases that meet the hypotheses -/

example : Holds (.int .u8) (Sv.int .i64 (some 200) : Sv Nat).den :=
  ⟨.int .u8 (some 200), rfl, by intro x hx; cases hx; exact ⟨by decide, by decide⟩, rfl⟩
example : coerce (.int .i64 (some 200) : Sv Nat) (.int .u8) = some (.int .u8 (some 200)) := by decide
example : coerce (.int .i64 (some 300) : Sv Nat) (.int .u8) = none := by decide
example : Holds .f32 (Sv.int .i64 (some (2 ^ 30)) : Sv Nat).den :=
  ⟨.f32 (some (.fin (2 ^ 30 * 2 ^ 1074))), trivial,
    by
      intro x hx; cases hx
      refine ⟨1, 1104, ?_, by decide, by decide, ?_⟩
      · rw [Int.natAbs_mul, Int.natAbs_pow, Int.natAbs_pow, Nat.one_mul, ← Nat.pow_add]
        rfl
      · rw [Int.natAbs_mul, Int.natAbs_pow, Int.natAbs_pow, ← Nat.pow_add]
        exact Nat.pow_lt_pow_right (by decide) (by decide),
    rfl⟩
example : Holds (.ts .s none) (Sv.ts .ms (some (-7000)) none : Sv Nat).den :=
  ⟨.ts .s (some (-7)) none, rfl, by intro x hx; cases hx; exact ⟨by decide, by decide⟩, rfl⟩
example : coerce (.ts .ms (some (-7000)) none : Sv Nat) (.ts .s (some 3)) = some (.ts .s (some (-7)) (some 3)) := by decide
example : coerce (.ts .s (some (2 ^ 60)) none : Sv Nat) (.ts .ns none) = none := by decide
example : coerce (.date64 (some 86400000) : Sv Nat) .date32 = some (.date32 (some 1)) := by decide
example : coerce (.time64 true (some 5000000000) : Sv Nat) (.time32 false) = some (.time32 false (some 5)) := by decide

end Verif.Coerce
