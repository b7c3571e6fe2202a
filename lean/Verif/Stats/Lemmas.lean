import Verif.Stats.Spec

/-! # Lemmas: statistics of numbers and booleans -/
namespace Verif.Stats

/-! ## Arrays with only nulls -/

def valsOf {α : Type} (arrays : List (List (Option α))) : List α := arrays.flatten.filterMap id

theorem nullCount_le {α : Type} (a : List (Option α)) : nullCount a ≤ a.length := List.countP_le_length

theorem nullCount_all {α : Type} {a : List (Option α)} (h : nullCount a = a.length) : a.filterMap id = [] := by
  have := List.countP_eq_length.1 h
  rw [List.filterMap_eq_nil_iff]
  intro x hx
  simpa using this x hx

theorem nullCount_append {α : Type} (a b : List (Option α)) : nullCount (a ++ b) = nullCount a + nullCount b := List.countP_append

theorem nullCount_zero {α : Type} {a : List (Option α)} (h : nullCount a = 0) : ∀ x ∈ a, x ≠ none := by
  intro x hx he
  have := List.countP_eq_zero.1 h x hx
  rw [he] at this
  simp at this

theorem nullCount_full {α : Type} {a : List (Option α)} (h : nullCount a = a.length) : ∀ x ∈ a, x = none := by
  intro x hx
  have := List.countP_eq_length.1 h x hx
  simpa using this

theorem valsOf_cons {α : Type} (a : List (Option α)) (as : List (List (Option α))) :
    valsOf (a :: as) = a.filterMap id ++ valsOf as := by
  simp [valsOf]

theorem mem_valsOf {α : Type} {arrays : List (List (Option α))} {v : α} : v ∈ valsOf arrays ↔ some v ∈ arrays.flatten := by
  unfold valsOf
  rw [List.mem_filterMap]
  exact ⟨fun ⟨x, h, e⟩ => (show x = some v from e) ▸ h, fun h => ⟨_, h, rfl⟩⟩

theorem foldl_opt {α σ : Type} (f : σ → α → σ) (g : σ → Option α → σ) (h1 : ∀ s v, g s (some v) = f s v) (h2 : ∀ s, g s none = s)
    (a : List (Option α)) (s : σ) : a.foldl g s = (a.filterMap id).foldl f s := by
  induction a generalizing s with
  | nil => rfl
  | cons x a ih =>
    cases x with
    | none => rw [List.foldl_cons, h2, ih]; rfl
    | some v => rw [List.foldl_cons, h1, ih]; rfl

/-! ## Integers -/

theorem intLoop_eq (arrays : List (List (Option Int))) : ∀ (m : Int × Int) (n : Nat) (b : Bool),
    intLoop (m, n, b) arrays = ((valsOf arrays).foldl (minMax (fun a b => some (intCmp a b))) m, n + nullCount arrays.flatten,
      b && (valsOf arrays).isEmpty) := by
  induction arrays with
  | nil => intro m n b; simp [intLoop, valsOf, nullCount]
  | cons a as ih =>
    intro m n b
    unfold intLoop
    simp only
    rw [List.flatten_cons, nullCount_append, valsOf_cons]
    by_cases h : nullCount a = a.length
    · rw [if_pos h, ih, nullCount_all h, List.nil_append, Nat.add_assoc]
    · rw [if_neg h, ih, foldl_opt (minMax (fun a b => some (intCmp a b))) _ (fun _ _ => rfl) (fun _ => rfl), List.foldl_append, Nat.add_assoc]
      have hne : a.filterMap id ≠ [] := by
        intro he
        apply h
        apply List.countP_eq_length.2
        intro x hx
        have := List.filterMap_eq_nil_iff.1 he x hx
        simpa using this
      have : (a.filterMap id ++ valsOf as).isEmpty = false := by
        cases hc : a.filterMap id with
        | nil => exact absurd hc hne
        | cons _ _ => rfl
      rw [this]
      simp

theorem intCmp_lt {a b : Int} : some (intCmp a b) = some Ordering.lt ↔ a < b := by
  unfold intCmp
  by_cases h : a < b
  · simp [h]
  · by_cases h2 : b < a <;> simp [h, h2]

theorem intCmp_gt {a b : Int} : some (intCmp a b) = some Ordering.gt ↔ b < a := by
  unfold intCmp
  by_cases h : a < b
  · simp [h]; omega
  · by_cases h2 : b < a <;> simp [h, h2]

theorem intFold_bounds (vs : List Int) : ∀ (m : Int × Int),
    let r := vs.foldl (minMax (fun a b => some (intCmp a b))) m
    r.1 ≤ m.1 ∧ m.2 ≤ r.2 ∧ ∀ v ∈ vs, r.1 ≤ v ∧ v ≤ r.2 := by
  induction vs with
  | nil => intro m; exact ⟨Int.le_refl _, Int.le_refl _, fun _ h => nomatch h⟩
  | cons v vs ih =>
    intro m
    simp only [List.foldl_cons]
    obtain ⟨h1, h2, h3⟩ := ih (minMax (fun a b => some (intCmp a b)) m v)
    have k1 : (minMax (fun a b => some (intCmp a b)) m v).1 ≤ m.1 ∧ (minMax (fun a b => some (intCmp a b)) m v).1 ≤ v := by
      unfold minMax
      simp only [intCmp_lt]
      by_cases h : v < m.1
      · rw [if_pos h]; omega
      · rw [if_neg h]; omega
    have k2 : m.2 ≤ (minMax (fun a b => some (intCmp a b)) m v).2 ∧ v ≤ (minMax (fun a b => some (intCmp a b)) m v).2 := by
      unfold minMax
      simp only [intCmp_gt]
      by_cases h : m.2 < v
      · rw [if_pos h]; omega
      · rw [if_neg h]; omega
    refine ⟨by omega, by omega, ?_⟩
    intro w hw
    rcases List.mem_cons.1 hw with hw | hw
    · subst hw; omega
    · exact h3 w hw

/-- The bounds are values of the page, or the starting values. -/
theorem intFold_mem (vs : List Int) : ∀ (m : Int × Int),
    let r := vs.foldl (minMax (fun a b => some (intCmp a b))) m
    (r.1 = m.1 ∨ r.1 ∈ vs) ∧ (r.2 = m.2 ∨ r.2 ∈ vs) := by
  induction vs with
  | nil => intro m; exact ⟨.inl rfl, .inl rfl⟩
  | cons v vs ih =>
    intro m
    simp only [List.foldl_cons]
    obtain ⟨h1, h2⟩ := ih (minMax (fun a b => some (intCmp a b)) m v)
    constructor
    · rcases h1 with h1 | h1
      · rw [h1]
        unfold minMax
        simp only
        split
        · exact .inr List.mem_cons_self
        · exact .inl rfl
      · exact .inr (List.mem_cons_of_mem _ h1)
    · rcases h2 with h2 | h2
      · rw [h2]
        unfold minMax
        simp only
        split
        · exact .inr List.mem_cons_self
        · exact .inl rfl
      · exact .inr (List.mem_cons_of_mem _ h2)

theorem intStats_ok (lo hi : Int) (arrays : List (List (Option Int))) (ht : ∀ v ∈ valsOf arrays, lo ≤ v ∧ v ≤ hi) :
    ∃ mn mx, intStats lo hi arrays = ⟨nullCount arrays.flatten, some (.int mn), some (.int mx)⟩ ∧
      (∀ v ∈ valsOf arrays, mn ≤ v ∧ v ≤ mx) ∧ (valsOf arrays ≠ [] → mn ∈ valsOf arrays ∧ mx ∈ valsOf arrays) := by
  unfold intStats
  rw [intLoop_eq]
  simp only [Nat.zero_add, Bool.true_and]
  cases he : valsOf arrays with
  | nil => exact ⟨lo, hi, rfl, (fun _ h => nomatch h), (fun h => absurd rfl h)⟩
  | cons w ws =>
    rw [← he]
    have hb : (valsOf arrays).isEmpty = false := by rw [he]; rfl
    rw [hb]
    obtain ⟨_, _, h3⟩ := intFold_bounds (valsOf arrays) (hi, lo)
    obtain ⟨h4, h5⟩ := intFold_mem (valsOf arrays) (hi, lo)
    refine ⟨_, _, rfl, h3, fun _ => ?_⟩
    have hw : w ∈ valsOf arrays := by rw [he]; exact List.mem_cons_self
    have hw1 := h3 w hw
    have hw2 := ht w hw
    constructor
    · rcases h4 with h4 | h4
      · have : w = (List.foldl (minMax fun a b => some (intCmp a b)) (hi, lo) (valsOf arrays)).1 := by
          simp only at h4; omega
        rw [← this]; exact hw
      · exact h4
    · rcases h5 with h5 | h5
      · have : w = (List.foldl (minMax fun a b => some (intCmp a b)) (hi, lo) (valsOf arrays)).2 := by
          simp only at h5; omega
        rw [← this]; exact hw
      · exact h5

/-! ## Floats -/

theorem fltLoop_eq (inf : Int) (arrays : List (List (Option Int))) : ∀ (m : Int × Int) (n : Nat),
    fltLoop inf (m, n) arrays = ((valsOf arrays).foldl (minMax (fltCmp inf)) m, n + nullCount arrays.flatten) := by
  induction arrays with
  | nil => intro m n; simp [fltLoop, valsOf, nullCount]
  | cons a as ih =>
    intro m n
    unfold fltLoop
    simp only
    rw [List.flatten_cons, nullCount_append, valsOf_cons]
    by_cases h : nullCount a = a.length
    · rw [if_pos h, ih, nullCount_all h, List.nil_append, Nat.add_assoc]
    · rw [if_neg h, ih, foldl_opt (minMax (fltCmp inf)) _ (fun _ _ => rfl) (fun _ => rfl), List.foldl_append, Nat.add_assoc]

theorem fltCmp_num {inf a b : Int} (ha : isNan inf a = false) (hb : isNan inf b = false) :
    fltCmp inf a b = some (intCmp (norm a) (norm b)) := by
  unfold fltCmp
  rw [ha, hb]
  rfl

theorem fltCmp_eq {inf a b : Int} (ha : isNan inf a = false) (hb : isNan inf b = false) :
    fltCmp inf a b = some .eq ↔ norm a = norm b := by
  rw [fltCmp_num ha hb]
  unfold intCmp
  by_cases h : norm a < norm b
  · simp [h]; omega
  · by_cases h2 : norm b < norm a
    · simp [h, h2]; omega
    · simp [h, h2]; omega

theorem fltFold_bounds (inf : Int) (vs : List Int) : ∀ (m : Int × Int), isNan inf m.1 = false → isNan inf m.2 = false →
    (∀ v ∈ vs, isNan inf v = false) →
    let r := vs.foldl (minMax (fltCmp inf)) m
    isNan inf r.1 = false ∧ isNan inf r.2 = false ∧
    norm r.1 ≤ norm m.1 ∧ norm m.2 ≤ norm r.2 ∧ ∀ v ∈ vs, norm r.1 ≤ norm v ∧ norm v ≤ norm r.2 := by
  induction vs with
  | nil => intro m h1 h2 _; exact ⟨h1, h2, Int.le_refl _, Int.le_refl _, fun _ h => nomatch h⟩
  | cons v vs ih =>
    intro m h1 h2 hv
    simp only [List.foldl_cons]
    have hv0 := hv v List.mem_cons_self
    have k1 : isNan inf (minMax (fltCmp inf) m v).1 = false ∧ norm (minMax (fltCmp inf) m v).1 ≤ norm m.1 ∧
        norm (minMax (fltCmp inf) m v).1 ≤ norm v := by
      unfold minMax
      simp only [fltCmp_num hv0 h1, intCmp_lt]
      by_cases h : norm v < norm m.1
      · rw [if_pos h]; exact ⟨hv0, by omega, by omega⟩
      · rw [if_neg h]; exact ⟨h1, by omega, by omega⟩
    have k2 : isNan inf (minMax (fltCmp inf) m v).2 = false ∧ norm m.2 ≤ norm (minMax (fltCmp inf) m v).2 ∧
        norm v ≤ norm (minMax (fltCmp inf) m v).2 := by
      unfold minMax
      simp only [fltCmp_num hv0 h2, intCmp_gt]
      by_cases h : norm m.2 < norm v
      · rw [if_pos h]; exact ⟨hv0, by omega, by omega⟩
      · rw [if_neg h]; exact ⟨h2, by omega, by omega⟩
    obtain ⟨j1, j2, j3, j4, j5⟩ := ih (minMax (fltCmp inf) m v) k1.1 k2.1 (fun w hw => hv w (List.mem_cons_of_mem _ hw))
    refine ⟨j1, j2, by omega, by omega, ?_⟩
    intro w hw
    rcases List.mem_cons.1 hw with hw | hw
    · subst hw; omega
    · exact j5 w hw

theorem norm_le {a b : Int} (h : norm a ≤ norm b) (h0 : norm a ≠ 0) : a ≤ b := by
  unfold norm at h h0
  by_cases ha : a = -1
  · rw [if_pos ha] at h0; exact absurd rfl h0
  · rw [if_neg ha] at h h0
    by_cases hb : b = -1
    · rw [if_pos hb] at h; omega
    · rw [if_neg hb] at h; omega

theorem norm_le' {a b : Int} (h : norm a ≤ norm b) (h0 : norm b ≠ 0) : a ≤ b := by
  unfold norm at h h0
  by_cases hb : b = -1
  · rw [if_pos hb] at h0; exact absurd rfl h0
  · rw [if_neg hb] at h h0
    by_cases ha : a = -1
    · rw [if_pos ha] at h; omega
    · rw [if_neg ha] at h; omega

theorem norm_zero_iff {a : Int} : norm a = 0 ↔ a = 0 ∨ a = -1 := by
  unfold norm
  by_cases h : a = -1
  · simp [h]
  · simp [h]

theorem fltStats_ok (inf : Int) (hinf : 0 ≤ inf) (arrays : List (List (Option Int)))
    (hn : ∀ v ∈ valsOf arrays, isNan inf v = false) :
    ∃ mn mx, fltStats inf arrays = ⟨nullCount arrays.flatten, some (.flt mn), some (.flt mx)⟩ ∧
      (∀ v ∈ valsOf arrays, mn ≤ v ∧ v ≤ mx) := by
  have n1 : isNan inf inf = false :=
    Bool.or_eq_false_iff.2 ⟨decide_eq_false (by (try unfold negInf); omega), decide_eq_false (by unfold negInf; omega)⟩
  have n2 : isNan inf (negInf inf) = false :=
    Bool.or_eq_false_iff.2 ⟨decide_eq_false (by (try unfold negInf); omega), decide_eq_false (by unfold negInf; omega)⟩
  have n3 : isNan inf 0 = false :=
    Bool.or_eq_false_iff.2 ⟨decide_eq_false (by (try unfold negInf); omega), decide_eq_false (by unfold negInf; omega)⟩
  have n4 : isNan inf (-1) = false :=
    Bool.or_eq_false_iff.2 ⟨decide_eq_false (by (try unfold negInf); omega), decide_eq_false (by unfold negInf; omega)⟩
  unfold fltStats
  rw [fltLoop_eq]
  simp only [Nat.zero_add]
  obtain ⟨j1, j2, _, _, j5⟩ := fltFold_bounds inf (valsOf arrays) (inf, negInf inf) n1 n2 hn
  refine ⟨_, _, rfl, ?_⟩
  intro v hv
  generalize hr : (valsOf arrays).foldl (minMax (fltCmp inf)) (inf, negInf inf) = r at *
  have hvn := hn v hv
  have hrange : negInf inf ≤ v ∧ v ≤ inf := by
    simp only [isNan, Bool.or_eq_false_iff, decide_eq_false_iff_not] at hvn
    omega
  -- bounds after the replacement
  have hm : ∃ m : Int × Int, m = (if fltCmp inf r.1 inf = some .eq ∧ fltCmp inf r.2 (negInf inf) = some .eq then (negInf inf, inf)
      else r) ∧ isNan inf m.1 = false ∧ isNan inf m.2 = false ∧ norm m.1 ≤ norm v ∧ norm v ≤ norm m.2 := by
    refine ⟨_, rfl, ?_⟩
    by_cases hc : fltCmp inf r.1 inf = some .eq ∧ fltCmp inf r.2 (negInf inf) = some .eq
    · rw [if_pos hc]
      refine ⟨n2, n1, ?_, ?_⟩
      · show norm (negInf inf) ≤ norm v
        unfold norm negInf
        unfold negInf at hrange
        split <;> split <;> omega
      · show norm v ≤ norm inf
        unfold norm
        split <;> split <;> omega
    · rw [if_neg hc]
      exact ⟨j1, j2, j5 v hv⟩
  obtain ⟨m, hm1, hm2, hm3, hm4, hm5⟩ := hm
  rw [← hm1]
  simp only [fltCmp_eq hm2 n3, fltCmp_eq hm3 n4]
  have z0 : norm 0 = 0 := rfl
  have z1 : norm (-1) = 0 := rfl
  rw [z0, z1]
  constructor
  · by_cases h : norm m.1 = 0
    · rw [if_pos h]
      rw [h] at hm4
      unfold norm at hm4
      split at hm4 <;> omega
    · rw [if_neg h]
      exact norm_le hm4 h
  · by_cases h : norm m.2 = 0
    · rw [if_pos h]
      rw [h] at hm5
      unfold norm at hm5
      split at hm5 <;> omega
    · rw [if_neg h]
      exact norm_le' hm5 h

/-! ## Booleans -/

/-- No nulls come after the arrays in which both values were seen. -/
def BoolClean (arrays : List (List (Option Bool))) : Prop :=
  ∀ pre post, arrays = pre ++ post → some true ∈ pre.flatten → some false ∈ pre.flatten → nullCount post.flatten = 0

theorem boolLoop_ok (arrays : List (List (Option Bool))) : ∀ (t f : Bool) (n : Nat), (t && f) = false →
    let r := boolLoop (t, f, n) arrays
    (some true ∈ arrays.flatten → r.1 = true) ∧ (some false ∈ arrays.flatten → r.2.1 = true) ∨ (r.1 = true ∧ r.2.1 = true) := by
  induction arrays with
  | nil => intro t f n _; exact .inl ⟨(fun h => nomatch h), (fun h => nomatch h)⟩
  | cons a as ih =>
    intro t f n htf
    unfold boolLoop
    simp only
    by_cases h : nullCount a = a.length
    · rw [if_pos h]
      have hf := nullCount_full h
      rcases ih t f (n + nullCount a) htf with ⟨h1, h2⟩ | h1
      · refine .inl ⟨?_, ?_⟩
        · intro hm
          rw [List.flatten_cons, List.mem_append] at hm
          rcases hm with hm | hm
          · exact nomatch (hf _ hm)
          · exact h1 hm
        · intro hm
          rw [List.flatten_cons, List.mem_append] at hm
          rcases hm with hm | hm
          · exact nomatch (hf _ hm)
          · exact h2 hm
      · exact .inr h1
    · rw [if_neg h]
      by_cases hb : ((t || a.contains (some true)) && (f || a.contains (some false))) = true
      · rw [if_pos hb]
        rw [Bool.and_eq_true] at hb
        exact .inr hb
      · rw [if_neg hb]
        have hb' := Bool.eq_false_iff.2 hb
        rcases ih _ _ (n + nullCount a) hb' with ⟨h1, h2⟩ | h1
        · have mono : ∀ (as : List (List (Option Bool))) (t f : Bool) (n : Nat), (t = true → (boolLoop (t, f, n) as).1 = true) ∧
              (f = true → (boolLoop (t, f, n) as).2.1 = true) := by
            intro as
            induction as with
            | nil => intro t f n; exact ⟨id, id⟩
            | cons a as ih2 =>
              intro t f n
              unfold boolLoop
              simp only
              by_cases h : nullCount a = a.length
              · rw [if_pos h]; exact ih2 t f _
              · rw [if_neg h]
                split
                · rename_i hx
                  rw [Bool.and_eq_true] at hx
                  exact ⟨fun _ => hx.1, fun _ => hx.2⟩
                · obtain ⟨q1, q2⟩ := ih2 (t || a.contains (some true)) (f || a.contains (some false)) (n + nullCount a)
                  exact ⟨fun e => q1 (by rw [e]; rfl), fun e => q2 (by rw [e]; rfl)⟩
          refine .inl ⟨?_, ?_⟩
          · intro hm
            rw [List.flatten_cons, List.mem_append] at hm
            rcases hm with hm | hm
            · exact (mono as _ _ _).1 (by simp [hm])
            · exact h1 hm
          · intro hm
            rw [List.flatten_cons, List.mem_append] at hm
            rcases hm with hm | hm
            · exact (mono as _ _ _).2 (by simp [hm])
            · exact h2 hm
        · exact .inr h1

/-- The count of nulls, if none is lost by leaving the loop. -/
theorem boolLoop_nulls (arrays : List (List (Option Bool))) : ∀ (pre : List (List (Option Bool))) (n : Nat),
    BoolClean (pre ++ arrays) →
    (boolLoop (pre.flatten.contains (some true), pre.flatten.contains (some false), n) arrays).2.2 = n + nullCount arrays.flatten := by
  induction arrays with
  | nil => intro pre n _; simp [boolLoop, nullCount]
  | cons a as ih =>
    intro pre n hc
    have hc' : BoolClean ((pre ++ [a]) ++ as) := by simpa using hc
    unfold boolLoop
    simp only
    rw [List.flatten_cons, nullCount_append]
    have e1 : ∀ b : Bool, (pre.flatten.contains (some b) || a.contains (some b)) = (pre ++ [a]).flatten.contains (some b) := by
      intro b
      simp [List.flatten_append, List.contains_eq_mem, Bool.decide_or]
    by_cases h : nullCount a = a.length
    · rw [if_pos h]
      have hf := nullCount_full h
      have e2 : ∀ b : Bool, pre.flatten.contains (some b) = (pre ++ [a]).flatten.contains (some b) := by
        intro b
        rw [← e1]
        have : a.contains (some b) = false := by
          rw [List.contains_eq_mem]
          simp only [decide_eq_false_iff_not]
          intro hm
          exact nomatch (hf _ hm)
        rw [this, Bool.or_false]
      rw [e2 true, e2 false, ih (pre ++ [a]) _ hc']
      omega
    · rw [if_neg h, e1, e1]
      split
      · rename_i hb
        rw [Bool.and_eq_true] at hb
        have h0 := hc' (pre ++ [a]) as rfl (by simpa using hb.1) (by simpa using hb.2)
        simp only
        omega
      · rw [ih (pre ++ [a]) _ hc']
        omega

end Verif.Stats
