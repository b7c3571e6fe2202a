import Verif.Coerce.Lemmas

/-! Which values the types hold, and that the coercion keeps them. -/
namespace Verif.Coerce

variable {S : Type}

theorem holds_int {t : IntTy} {y : Val S} (h : Holds (.int t) (some y)) :
    ∃ v, y = .num (v * 2 ^ 1074) ∧ t.lo ≤ v ∧ v ≤ t.hi := by
  obtain ⟨w, h1, h2, h3⟩ := h
  cases w <;> simp only [Sv.HasTy] at h1
  · subst h1
    simp only [Sv.den, Option.map_eq_some_iff] at h3
    obtain ⟨v, rfl, rfl⟩ := h3
    exact ⟨v, rfl, h2 v rfl⟩
  · cases h3

theorem holds_f32 {y : Val S} (h : Holds .f32 (some y)) : ∃ x : Fl, y = x.den ∧ x.Typed 24 925 (128 + 1074) := by
  obtain ⟨w, h1, h2, h3⟩ := h
  cases w <;> simp only [Sv.HasTy] at h1
  · simp only [Sv.den, Option.map_eq_some_iff] at h3
    obtain ⟨v, rfl, rfl⟩ := h3
    exact ⟨v, rfl, h2 v rfl⟩
  · cases h3

theorem holds_f64 {y : Val S} (h : Holds .f64 (some y)) : ∃ x : Fl, y = x.den ∧ x.Typed 53 0 (1024 + 1074) := by
  obtain ⟨w, h1, h2, h3⟩ := h
  cases w <;> simp only [Sv.HasTy] at h1
  · simp only [Sv.den, Option.map_eq_some_iff] at h3
    obtain ⟨v, rfl, rfl⟩ := h3
    exact ⟨v, rfl, h2 v rfl⟩
  · cases h3

theorem holds_utf8 {y : Val S} (h : Holds .utf8 (some y)) : ∃ s, y = .str s := by
  obtain ⟨w, h1, h2, h3⟩ := h
  cases w <;> simp only [Sv.HasTy] at h1
  · simp only [Sv.den, Option.map_eq_some_iff] at h3
    obtain ⟨v, rfl, rfl⟩ := h3
    exact ⟨v, rfl⟩
  · cases h3

theorem holds_largeUtf8 {y : Val S} (h : Holds .largeUtf8 (some y)) : ∃ s, y = .str s := by
  obtain ⟨w, h1, h2, h3⟩ := h
  cases w <;> simp only [Sv.HasTy] at h1
  · simp only [Sv.den, Option.map_eq_some_iff] at h3
    obtain ⟨v, rfl, rfl⟩ := h3
    exact ⟨v, rfl⟩
  · cases h3

theorem holds_boolean {y : Val S} (h : Holds .boolean (some y)) : ∃ s, y = .bool s := by
  obtain ⟨w, h1, h2, h3⟩ := h
  cases w <;> simp only [Sv.HasTy] at h1
  · simp only [Sv.den, Option.map_eq_some_iff] at h3
    obtain ⟨v, rfl, rfl⟩ := h3
    exact ⟨v, rfl⟩
  · cases h3

theorem holds_ts {u : TUnit} {tz : Option Nat} {y : Val S} (h : Holds (.ts u tz) (some y)) :
    ∃ v, y = .time (v * u.tick) ∧ Signed 64 v := by
  obtain ⟨w, h1, h2, h3⟩ := h
  cases w <;> simp only [Sv.HasTy] at h1
  · cases h3
  · subst h1
    simp only [Sv.den, Option.map_eq_some_iff] at h3
    obtain ⟨v, rfl, rfl⟩ := h3
    exact ⟨v, rfl, h2 v rfl⟩

theorem holds_date32 {y : Val S} (h : Holds .date32 (some y)) : ∃ v, y = .day (v * 86400000) ∧ Signed 32 v := by
  obtain ⟨w, h1, h2, h3⟩ := h
  cases w <;> simp only [Sv.HasTy] at h1
  · cases h3
  · simp only [Sv.den, Option.map_eq_some_iff] at h3
    obtain ⟨v, rfl, rfl⟩ := h3
    exact ⟨v, rfl, h2 v rfl⟩

theorem holds_date64 {y : Val S} (h : Holds .date64 (some y)) : ∃ v, y = .day v ∧ Signed 64 v := by
  obtain ⟨w, h1, h2, h3⟩ := h
  cases w <;> simp only [Sv.HasTy] at h1
  · cases h3
  · simp only [Sv.den, Option.map_eq_some_iff] at h3
    obtain ⟨v, rfl, rfl⟩ := h3
    exact ⟨v, rfl, h2 v rfl⟩

theorem holds_time32 {b : Bool} {y : Val S} (h : Holds (.time32 b) (some y)) :
    ∃ v, y = .clock (v * if b then 1000000 else 1000000000) ∧ Signed 32 v := by
  obtain ⟨w, h1, h2, h3⟩ := h
  cases w <;> simp only [Sv.HasTy] at h1
  · cases h3
  · subst h1
    simp only [Sv.den, Option.map_eq_some_iff] at h3
    obtain ⟨v, rfl, rfl⟩ := h3
    exact ⟨v, rfl, h2 v rfl⟩

theorem holds_time64 {b : Bool} {y : Val S} (h : Holds (.time64 b) (some y)) :
    ∃ v, y = .clock (v * if b then 1 else 1000) ∧ Signed 64 v := by
  obtain ⟨w, h1, h2, h3⟩ := h
  cases w <;> simp only [Sv.HasTy] at h1
  · cases h3
  · subst h1
    simp only [Sv.den, Option.map_eq_some_iff] at h3
    obtain ⟨v, rfl, rfl⟩ := h3
    exact ⟨v, rfl, h2 v rfl⟩

theorem holds_other {y : Val S} (h : Holds .other (some y)) : False := by
  obtain ⟨w, h1, h2, h3⟩ := h
  cases w <;> simp only [Sv.HasTy] at h1
  cases h3

/-- Floats are refused for integer columns, even whole ones. -/
def FloatToInt : Sv S → Ty → Prop
  | .f32 _, .int _ => True
  | .f64 _, .int _ => True
  | _, _ => False

theorem keep_int {s : IntTy} {x : Int} {ty : Ty} (hw : s.lo ≤ x ∧ x ≤ s.hi)
    (hh : Holds ty (some (.num (x * 2 ^ 1074) : Val S))) :
    ∃ w', coerce (.int s (some x) : Sv S) ty = some w' ∧ w'.den = some (.num (x * 2 ^ 1074)) ∧ w'.HasTy ty := by
  have hpos : (2 : Int) ^ 1074 ≠ 0 := by
    have : (0 : Int) < 2 ^ 1074 := Int.pow_pos (by decide)
    exact Int.ne_of_gt this
  cases ty with
  | int t =>
    obtain ⟨v, h1, h2⟩ := holds_int hh
    simp only [Val.num.injEq] at h1
    have hv : x = v := Int.eq_of_mul_eq_mul_right hpos h1
    subst hv
    by_cases hst : s = t
    · exact ⟨.int s (some x), by simp only [coerce]; rw [if_pos hst], rfl, hst⟩
    · refine ⟨.int t (some x), ?_, rfl, rfl⟩
      simp only [coerce]
      rw [if_neg hst]
      by_cases hwd : wider s t = true
      · rw [if_pos hwd]; rfl
      · rw [if_neg hwd]
        simp only [Option.bind_some, tryInt]
        rw [if_pos h2]; rfl
  | f32 =>
    obtain ⟨f, h1, h2⟩ := holds_f32 hh
    cases f with
    | fin k =>
      simp only [Fl.den, Val.num.injEq] at h1
      obtain ⟨m, e, h3, h4, _, _⟩ := h2
      rw [← h1] at h3
      refine ⟨.f32 (some (toF32 x)), rfl, ?_, trivial⟩
      simp only [Sv.den, toF32, Option.map_some, Fl.den]
      rw [roundInt_scaled 1074 24 x m e h3 h4]
    | _ => cases h1
  | f64 =>
    obtain ⟨f, h1, h2⟩ := holds_f64 hh
    cases f with
    | fin k =>
      simp only [Fl.den, Val.num.injEq] at h1
      obtain ⟨m, e, h3, h4, _, _⟩ := h2
      rw [← h1] at h3
      refine ⟨.f64 (some (toF64 x)), rfl, ?_, trivial⟩
      simp only [Sv.den, toF64, Option.map_some, Fl.den]
      rw [roundInt_scaled 1074 53 x m e h3 h4]
    | _ => cases h1
  | utf8 => obtain ⟨_, h⟩ := holds_utf8 hh; cases h
  | largeUtf8 => obtain ⟨_, h⟩ := holds_largeUtf8 hh; cases h
  | boolean => obtain ⟨_, h⟩ := holds_boolean hh; cases h
  | ts u tz => obtain ⟨_, h, _⟩ := holds_ts hh; cases h
  | date32 => obtain ⟨_, h, _⟩ := holds_date32 hh; cases h
  | date64 => obtain ⟨_, h, _⟩ := holds_date64 hh; cases h
  | time32 b => obtain ⟨_, h, _⟩ := holds_time32 hh; cases h
  | time64 b => obtain ⟨_, h, _⟩ := holds_time64 hh; cases h
  | other => exact (holds_other hh).elim

theorem Fl.den_inj {x y : Fl} (h : (x.den : Val S) = y.den) : x = y := by
  cases x <;> cases y <;> simp_all [Fl.den]

theorem keep_f32 {x : Fl} {ty : Ty} (hh : Holds ty (some (x.den : Val S))) (hn : ∀ t, ty ≠ .int t) :
    ∃ w', coerce (.f32 (some x) : Sv S) ty = some w' ∧ w'.den = some x.den ∧ w'.HasTy ty := by
  cases ty with
  | int t => exact absurd rfl (hn t)
  | f32 => exact ⟨_, rfl, rfl, trivial⟩
  | f64 => exact ⟨_, rfl, rfl, trivial⟩
  | utf8 => obtain ⟨_, h⟩ := holds_utf8 hh; cases x <;> cases h
  | largeUtf8 => obtain ⟨_, h⟩ := holds_largeUtf8 hh; cases x <;> cases h
  | boolean => obtain ⟨_, h⟩ := holds_boolean hh; cases x <;> cases h
  | ts u tz => obtain ⟨_, h, _⟩ := holds_ts hh; cases x <;> cases h
  | date32 => obtain ⟨_, h, _⟩ := holds_date32 hh; cases x <;> cases h
  | date64 => obtain ⟨_, h, _⟩ := holds_date64 hh; cases x <;> cases h
  | time32 b => obtain ⟨_, h, _⟩ := holds_time32 hh; cases x <;> cases h
  | time64 b => obtain ⟨_, h, _⟩ := holds_time64 hh; cases x <;> cases h
  | other => exact (holds_other hh).elim

theorem narrow_exact {x : Fl} (h : x.Typed 24 925 (128 + 1074)) : narrow x = x := by
  cases x with
  | nan => rfl
  | inf b => rfl
  | fin k =>
    obtain ⟨m, e, h1, h2, h3, h4⟩ := h
    simp only [narrow]
    rw [roundInt_exact 24 925 k m e h1 h2 h3, if_pos h4]

theorem keep_f64 {x : Fl} {ty : Ty} (hh : Holds ty (some (x.den : Val S))) (hn : ∀ t, ty ≠ .int t) :
    ∃ w', coerce (.f64 (some x) : Sv S) ty = some w' ∧ w'.den = some x.den ∧ w'.HasTy ty := by
  cases ty with
  | int t => exact absurd rfl (hn t)
  | f32 =>
    obtain ⟨y, h1, h2⟩ := holds_f32 hh
    have := Fl.den_inj h1
    subst this
    exact ⟨.f32 (some (narrow x)), rfl, by rw [narrow_exact h2]; rfl, trivial⟩
  | f64 => exact ⟨_, rfl, rfl, trivial⟩
  | utf8 => obtain ⟨_, h⟩ := holds_utf8 hh; cases x <;> cases h
  | largeUtf8 => obtain ⟨_, h⟩ := holds_largeUtf8 hh; cases x <;> cases h
  | boolean => obtain ⟨_, h⟩ := holds_boolean hh; cases x <;> cases h
  | ts u tz => obtain ⟨_, h, _⟩ := holds_ts hh; cases x <;> cases h
  | date32 => obtain ⟨_, h, _⟩ := holds_date32 hh; cases x <;> cases h
  | date64 => obtain ⟨_, h, _⟩ := holds_date64 hh; cases x <;> cases h
  | time32 b => obtain ⟨_, h, _⟩ := holds_time32 hh; cases x <;> cases h
  | time64 b => obtain ⟨_, h, _⟩ := holds_time64 hh; cases x <;> cases h
  | other => exact (holds_other hh).elim

theorem not_float {x : Fl} {y : Val S} (h : y = x.den) : (∃ k, y = .num k) ∨ y = .nan ∨ ∃ b, y = .inf b := by
  subst h
  cases x with
  | nan => exact Or.inr (Or.inl rfl)
  | inf b => exact Or.inr (Or.inr ⟨b, rfl⟩)
  | fin k => exact Or.inl ⟨k, rfl⟩

theorem ts_finer {u u' : TUnit} (h : u.perSec < u'.perSec) :
    u.tick = u'.tick * (u'.perSec / u.perSec) ∧ 0 < u'.tick := by
  cases u <;> cases u' <;> first | exact ⟨by decide, by decide⟩ | exact absurd h (by decide)

theorem ts_coarser {u u' : TUnit} (h : ¬ u.perSec < u'.perSec) :
    u'.tick = u.tick * (u.perSec / u'.perSec) ∧ 0 < u.perSec / u'.perSec ∧ 0 < u.tick := by
  cases u <;> cases u' <;> first | exact ⟨by decide, by decide, by decide⟩ | exact absurd (by decide) h

theorem keep_ts {u : TUnit} {x : Int} {tz : Option Nat} {ty : Ty}
    (hh : Holds ty (some (.time (x * u.tick) : Val S))) :
    ∃ w', coerce (.ts u (some x) tz : Sv S) ty = some w' ∧ w'.den = some (.time (x * u.tick)) ∧ w'.HasTy ty := by
  cases ty with
  | ts u' tz' =>
    obtain ⟨v, h1, h2⟩ := holds_ts hh
    simp only [Val.time.injEq] at h1
    by_cases huu : u = u'
    · exact ⟨.ts u (some x) tz, by simp only [coerce, coerceTs]; rw [if_pos huu], rfl, huu⟩
    · have hc : (coerce (.ts u (some x) tz : Sv S) (.ts u' tz')) = some (.ts u' (some v) tz') := by
        simp only [coerce, coerceTs]
        rw [if_neg huu]
        by_cases hlt : u.perSec < u'.perSec
        · obtain ⟨h3, h4⟩ := ts_finer hlt
          rw [if_pos hlt]
          have : x * (u'.perSec / u.perSec) = v := by
            rw [h3, Int.mul_comm u'.tick, ← Int.mul_assoc] at h1
            exact Int.eq_of_mul_eq_mul_right (by omega) h1
          simp only [Option.bind_some, checkedMul, this, tryInt64 h2, Option.map_some]
        · obtain ⟨h3, h4, h5⟩ := ts_coarser hlt
          rw [if_neg hlt]
          simp only [Option.map_some, tdiv_exact h4 h3 h5 h1]
      exact ⟨_, hc, by simp only [Sv.den, Option.map_some, h1], rfl⟩
  | int t => obtain ⟨_, h, _⟩ := holds_int hh; cases h
  | f32 => obtain ⟨f, h, _⟩ := holds_f32 hh; rcases not_float h with ⟨_, h⟩ | h | ⟨_, h⟩ <;> cases h
  | f64 => obtain ⟨f, h, _⟩ := holds_f64 hh; rcases not_float h with ⟨_, h⟩ | h | ⟨_, h⟩ <;> cases h
  | utf8 => obtain ⟨_, h⟩ := holds_utf8 hh; cases h
  | largeUtf8 => obtain ⟨_, h⟩ := holds_largeUtf8 hh; cases h
  | boolean => obtain ⟨_, h⟩ := holds_boolean hh; cases h
  | date32 => obtain ⟨_, h, _⟩ := holds_date32 hh; cases h
  | date64 => obtain ⟨_, h, _⟩ := holds_date64 hh; cases h
  | time32 b => obtain ⟨_, h, _⟩ := holds_time32 hh; cases h
  | time64 b => obtain ⟨_, h, _⟩ := holds_time64 hh; cases h
  | other => exact (holds_other hh).elim

theorem keep_date32 {x : Int} {ty : Ty} (hh : Holds ty (some (.day (x * 86400000) : Val S))) :
    ∃ w', coerce (.date32 (some x) : Sv S) ty = some w' ∧ w'.den = some (.day (x * 86400000)) ∧ w'.HasTy ty := by
  cases ty with
  | date32 => exact ⟨_, rfl, rfl, trivial⟩
  | date64 =>
    obtain ⟨v, h1, h2⟩ := holds_date64 hh
    simp only [Val.day.injEq] at h1
    refine ⟨_, rfl, ?_, trivial⟩
    simp only [Sv.den, Option.map_some, msPerDay]
    rw [wrap_id64 (by rw [h1]; exact h2)]
  | ts u tz => obtain ⟨_, h, _⟩ := holds_ts hh; cases h
  | int t => obtain ⟨_, h, _⟩ := holds_int hh; cases h
  | f32 => obtain ⟨f, h, _⟩ := holds_f32 hh; rcases not_float h with ⟨_, h⟩ | h | ⟨_, h⟩ <;> cases h
  | f64 => obtain ⟨f, h, _⟩ := holds_f64 hh; rcases not_float h with ⟨_, h⟩ | h | ⟨_, h⟩ <;> cases h
  | utf8 => obtain ⟨_, h⟩ := holds_utf8 hh; cases h
  | largeUtf8 => obtain ⟨_, h⟩ := holds_largeUtf8 hh; cases h
  | boolean => obtain ⟨_, h⟩ := holds_boolean hh; cases h
  | time32 b => obtain ⟨_, h, _⟩ := holds_time32 hh; cases h
  | time64 b => obtain ⟨_, h, _⟩ := holds_time64 hh; cases h
  | other => exact (holds_other hh).elim

theorem keep_date64 {x : Int} {ty : Ty} (hh : Holds ty (some (.day x : Val S))) :
    ∃ w', coerce (.date64 (some x) : Sv S) ty = some w' ∧ w'.den = some (.day x) ∧ w'.HasTy ty := by
  cases ty with
  | date64 => exact ⟨_, rfl, rfl, trivial⟩
  | date32 =>
    obtain ⟨v, h1, h2⟩ := holds_date32 hh
    simp only [Val.day.injEq] at h1
    refine ⟨_, rfl, ?_, trivial⟩
    have h3 : x.tdiv msPerDay = v := tdiv_exact (a := 86400000) (b := 1) (by decide) (by decide) (by decide) (by omega)
    simp only [Sv.den, Option.map_some, h3, wrap_id32 h2]
    rw [h1]
  | ts u tz => obtain ⟨_, h, _⟩ := holds_ts hh; cases h
  | int t => obtain ⟨_, h, _⟩ := holds_int hh; cases h
  | f32 => obtain ⟨f, h, _⟩ := holds_f32 hh; rcases not_float h with ⟨_, h⟩ | h | ⟨_, h⟩ <;> cases h
  | f64 => obtain ⟨f, h, _⟩ := holds_f64 hh; rcases not_float h with ⟨_, h⟩ | h | ⟨_, h⟩ <;> cases h
  | utf8 => obtain ⟨_, h⟩ := holds_utf8 hh; cases h
  | largeUtf8 => obtain ⟨_, h⟩ := holds_largeUtf8 hh; cases h
  | boolean => obtain ⟨_, h⟩ := holds_boolean hh; cases h
  | time32 b => obtain ⟨_, h, _⟩ := holds_time32 hh; cases h
  | time64 b => obtain ⟨_, h, _⟩ := holds_time64 hh; cases h
  | other => exact (holds_other hh).elim

theorem keep_time32 {b : Bool} {x : Int} {ty : Ty} (hx : Signed 32 x)
    (hh : Holds ty (some (.clock (x * if b then 1000000 else 1000000000) : Val S))) :
    ∃ w', coerce (.time32 b (some x) : Sv S) ty = some w' ∧
      w'.den = some (.clock (x * if b then 1000000 else 1000000000)) ∧ w'.HasTy ty := by
  cases ty with
  | time32 b' =>
    obtain ⟨v, h1, h2⟩ := holds_time32 hh
    simp only [Val.clock.injEq] at h1
    cases b <;> cases b' <;> simp only [Bool.false_eq_true, if_true, if_false] at h1 ⊢
    · exact ⟨_, rfl, rfl, rfl⟩
    · refine ⟨_, rfl, ?_, rfl⟩
      have h3 : x * 1000 = v := by omega
      simp only [Sv.den, Option.map_some, h3, wrap_id32 h2, h1, if_true]
    · refine ⟨_, rfl, ?_, rfl⟩
      have h3 : x.tdiv 1000 = v := tdiv_exact (a := 1000000000) (b := 1000000) (by decide) (by decide) (by decide) h1
      simp only [Sv.den, Option.map_some, h3, h1, Bool.false_eq_true, if_false]
    · exact ⟨_, rfl, rfl, rfl⟩
  | time64 b' =>
    obtain ⟨v, h1, h2⟩ := holds_time64 hh
    simp only [Val.clock.injEq] at h1
    cases b <;> cases b' <;> simp only [Bool.false_eq_true, if_true, if_false] at h1 ⊢
    · refine ⟨_, rfl, ?_, rfl⟩
      have h3 : x * 1000000 = v := by omega
      simp only [Sv.den, Option.map_some, h3, wrap_id64 h2, h1, Bool.false_eq_true, if_false]
    · refine ⟨_, rfl, ?_, rfl⟩
      have h3 : x * 1000000000 = v := by omega
      simp only [Sv.den, Option.map_some, h3, wrap_id64 h2, if_true, Int.mul_one]
    · refine ⟨_, rfl, ?_, rfl⟩
      have h3 : x * 1000 = v := by omega
      simp only [Sv.den, Option.map_some, h3, wrap_id64 h2, h1, Bool.false_eq_true, if_false]
    · refine ⟨_, rfl, ?_, rfl⟩
      have h3 : x * 1000000 = v := by omega
      simp only [Sv.den, Option.map_some, h3, wrap_id64 h2, if_true, Int.mul_one]
  | ts u tz => obtain ⟨_, h, _⟩ := holds_ts hh; cases h
  | int t => obtain ⟨_, h, _⟩ := holds_int hh; cases h
  | f32 => obtain ⟨f, h, _⟩ := holds_f32 hh; rcases not_float h with ⟨_, h⟩ | h | ⟨_, h⟩ <;> cases h
  | f64 => obtain ⟨f, h, _⟩ := holds_f64 hh; rcases not_float h with ⟨_, h⟩ | h | ⟨_, h⟩ <;> cases h
  | utf8 => obtain ⟨_, h⟩ := holds_utf8 hh; cases h
  | largeUtf8 => obtain ⟨_, h⟩ := holds_largeUtf8 hh; cases h
  | boolean => obtain ⟨_, h⟩ := holds_boolean hh; cases h
  | date32 => obtain ⟨_, h, _⟩ := holds_date32 hh; cases h
  | date64 => obtain ⟨_, h, _⟩ := holds_date64 hh; cases h
  | other => exact (holds_other hh).elim

theorem keep_time64 {b : Bool} {x : Int} {ty : Ty}
    (hh : Holds ty (some (.clock (x * if b then 1 else 1000) : Val S))) :
    ∃ w', coerce (.time64 b (some x) : Sv S) ty = some w' ∧
      w'.den = some (.clock (x * if b then 1 else 1000)) ∧ w'.HasTy ty := by
  cases ty with
  | time32 b' =>
    obtain ⟨v, h1, h2⟩ := holds_time32 hh
    simp only [Val.clock.injEq] at h1
    cases b <;> cases b' <;> simp only [Bool.false_eq_true, if_true, if_false] at h1 ⊢
    · refine ⟨_, rfl, ?_, rfl⟩
      have h3 : x.tdiv 1000000 = v := tdiv_exact (a := 1000000000) (b := 1000) (by decide) (by decide) (by decide) h1
      simp only [Sv.den, Option.map_some, h3, wrap_id32 h2, h1, Bool.false_eq_true, if_false]
    · refine ⟨_, rfl, ?_, rfl⟩
      have h3 : x.tdiv 1000 = v := tdiv_exact (a := 1000000) (b := 1000) (by decide) (by decide) (by decide) h1
      simp only [Sv.den, Option.map_some, h3, wrap_id32 h2, h1, if_true]
    · refine ⟨_, rfl, ?_, rfl⟩
      have h3 : x.tdiv 1000000000 = v := tdiv_exact (a := 1000000000) (b := 1) (by decide) (by decide) (by decide) h1
      simp only [Sv.den, Option.map_some, h3, wrap_id32 h2, h1, Bool.false_eq_true, if_false]
    · refine ⟨_, rfl, ?_, rfl⟩
      have h3 : x.tdiv 1000000 = v := tdiv_exact (a := 1000000) (b := 1) (by decide) (by decide) (by decide) h1
      simp only [Sv.den, Option.map_some, h3, wrap_id32 h2, h1, if_true]
  | time64 b' =>
    obtain ⟨v, h1, h2⟩ := holds_time64 hh
    simp only [Val.clock.injEq] at h1
    cases b <;> cases b' <;> simp only [Bool.false_eq_true, if_true, if_false] at h1 ⊢
    · exact ⟨_, rfl, rfl, rfl⟩
    · refine ⟨_, rfl, ?_, rfl⟩
      have h3 : x * 1000 = v := by omega
      simp only [Sv.den, Option.map_some, h3, wrap_id64 h2, if_true, Int.mul_one]
    · refine ⟨_, rfl, ?_, rfl⟩
      have h3 : x.tdiv 1000 = v := tdiv_exact (a := 1000) (b := 1) (by decide) (by decide) (by decide) h1
      simp only [Sv.den, Option.map_some, h3, h1, Bool.false_eq_true, if_false]
    · exact ⟨_, rfl, rfl, rfl⟩
  | ts u tz => obtain ⟨_, h, _⟩ := holds_ts hh; cases h
  | int t => obtain ⟨_, h, _⟩ := holds_int hh; cases h
  | f32 => obtain ⟨f, h, _⟩ := holds_f32 hh; rcases not_float h with ⟨_, h⟩ | h | ⟨_, h⟩ <;> cases h
  | f64 => obtain ⟨f, h, _⟩ := holds_f64 hh; rcases not_float h with ⟨_, h⟩ | h | ⟨_, h⟩ <;> cases h
  | utf8 => obtain ⟨_, h⟩ := holds_utf8 hh; cases h
  | largeUtf8 => obtain ⟨_, h⟩ := holds_largeUtf8 hh; cases h
  | boolean => obtain ⟨_, h⟩ := holds_boolean hh; cases h
  | date32 => obtain ⟨_, h, _⟩ := holds_date32 hh; cases h
  | date64 => obtain ⟨_, h, _⟩ := holds_date64 hh; cases h
  | other => exact (holds_other hh).elim

/-- A value that the type can hold is taken and kept. -/
theorem keep {w : Sv S} {ty : Ty} (hw : w.Typed) {y : Val S} (hy : w.den = some y) (hh : Holds ty (some y))
    (hf : ¬ FloatToInt w ty) : ∃ w', coerce w ty = some w' ∧ w'.den = some y ∧ w'.HasTy ty := by
  cases w with
  | int s v =>
    simp only [Sv.den, Option.map_eq_some_iff] at hy
    obtain ⟨x, rfl, rfl⟩ := hy
    exact keep_int (hw x rfl) hh
  | f32 v =>
    simp only [Sv.den, Option.map_eq_some_iff] at hy
    obtain ⟨x, rfl, rfl⟩ := hy
    exact keep_f32 hh (by rintro t rfl; exact hf trivial)
  | f64 v =>
    simp only [Sv.den, Option.map_eq_some_iff] at hy
    obtain ⟨x, rfl, rfl⟩ := hy
    exact keep_f64 hh (by rintro t rfl; exact hf trivial)
  | utf8 v =>
    simp only [Sv.den, Option.map_eq_some_iff] at hy
    obtain ⟨x, rfl, rfl⟩ := hy
    cases ty with
    | utf8 => exact ⟨_, rfl, rfl, trivial⟩
    | largeUtf8 => exact ⟨_, rfl, rfl, trivial⟩
    | ts u tz => obtain ⟨_, h, _⟩ := holds_ts hh; cases h
    | int t => obtain ⟨_, h, _⟩ := holds_int hh; cases h
    | f32 => obtain ⟨f, h, _⟩ := holds_f32 hh; rcases not_float h with ⟨_, h⟩ | h | ⟨_, h⟩ <;> cases h
    | f64 => obtain ⟨f, h, _⟩ := holds_f64 hh; rcases not_float h with ⟨_, h⟩ | h | ⟨_, h⟩ <;> cases h
    | boolean => obtain ⟨_, h⟩ := holds_boolean hh; cases h
    | date32 => obtain ⟨_, h, _⟩ := holds_date32 hh; cases h
    | date64 => obtain ⟨_, h, _⟩ := holds_date64 hh; cases h
    | time32 b => obtain ⟨_, h, _⟩ := holds_time32 hh; cases h
    | time64 b => obtain ⟨_, h, _⟩ := holds_time64 hh; cases h
    | other => exact (holds_other hh).elim
  | largeUtf8 v =>
    simp only [Sv.den, Option.map_eq_some_iff] at hy
    obtain ⟨x, rfl, rfl⟩ := hy
    cases ty with
    | utf8 => exact ⟨_, rfl, rfl, trivial⟩
    | largeUtf8 => exact ⟨_, rfl, rfl, trivial⟩
    | ts u tz => obtain ⟨_, h, _⟩ := holds_ts hh; cases h
    | int t => obtain ⟨_, h, _⟩ := holds_int hh; cases h
    | f32 => obtain ⟨f, h, _⟩ := holds_f32 hh; rcases not_float h with ⟨_, h⟩ | h | ⟨_, h⟩ <;> cases h
    | f64 => obtain ⟨f, h, _⟩ := holds_f64 hh; rcases not_float h with ⟨_, h⟩ | h | ⟨_, h⟩ <;> cases h
    | boolean => obtain ⟨_, h⟩ := holds_boolean hh; cases h
    | date32 => obtain ⟨_, h, _⟩ := holds_date32 hh; cases h
    | date64 => obtain ⟨_, h, _⟩ := holds_date64 hh; cases h
    | time32 b => obtain ⟨_, h, _⟩ := holds_time32 hh; cases h
    | time64 b => obtain ⟨_, h, _⟩ := holds_time64 hh; cases h
    | other => exact (holds_other hh).elim
  | boolean v =>
    simp only [Sv.den, Option.map_eq_some_iff] at hy
    obtain ⟨x, rfl, rfl⟩ := hy
    cases ty with
    | boolean => exact ⟨_, rfl, rfl, trivial⟩
    | ts u tz => obtain ⟨_, h, _⟩ := holds_ts hh; cases h
    | int t => obtain ⟨_, h, _⟩ := holds_int hh; cases h
    | f32 => obtain ⟨f, h, _⟩ := holds_f32 hh; rcases not_float h with ⟨_, h⟩ | h | ⟨_, h⟩ <;> cases h
    | f64 => obtain ⟨f, h, _⟩ := holds_f64 hh; rcases not_float h with ⟨_, h⟩ | h | ⟨_, h⟩ <;> cases h
    | utf8 => obtain ⟨_, h⟩ := holds_utf8 hh; cases h
    | largeUtf8 => obtain ⟨_, h⟩ := holds_largeUtf8 hh; cases h
    | date32 => obtain ⟨_, h, _⟩ := holds_date32 hh; cases h
    | date64 => obtain ⟨_, h, _⟩ := holds_date64 hh; cases h
    | time32 b => obtain ⟨_, h, _⟩ := holds_time32 hh; cases h
    | time64 b => obtain ⟨_, h, _⟩ := holds_time64 hh; cases h
    | other => exact (holds_other hh).elim
  | null => cases hy
  | ts u v tz =>
    simp only [Sv.den, Option.map_eq_some_iff] at hy
    obtain ⟨x, rfl, rfl⟩ := hy
    exact keep_ts hh
  | date32 v =>
    simp only [Sv.den, Option.map_eq_some_iff] at hy
    obtain ⟨x, rfl, rfl⟩ := hy
    exact keep_date32 hh
  | date64 v =>
    simp only [Sv.den, Option.map_eq_some_iff] at hy
    obtain ⟨x, rfl, rfl⟩ := hy
    exact keep_date64 hh
  | time32 b v =>
    simp only [Sv.den, Option.map_eq_some_iff] at hy
    obtain ⟨x, rfl, rfl⟩ := hy
    exact keep_time32 (hw x rfl) hh
  | time64 b v =>
    simp only [Sv.den, Option.map_eq_some_iff] at hy
    obtain ⟨x, rfl, rfl⟩ := hy
    exact keep_time64 hh
  | other => cases hy

end Verif.Coerce
