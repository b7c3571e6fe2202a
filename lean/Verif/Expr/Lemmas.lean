import Verif.Expr.Spec

/-! Helper lemmas for splitting filters. -/
namespace Verif.Expr
open Verif
open Verif.RowSet (TreeMap Mask)
open Verif.Scalar (LinOrd Bd LQuery)

variable {V : Type} [LinOrd V] [DecidableEq V]

theorem and3_true (a b : Option Bool) : and3 a b = some true ↔ a = some true ∧ b = some true := by
  rcases a with _ | _ | _ <;> rcases b with _ | _ | _ <;> simp [and3]

theorem or3_true (a b : Option Bool) : or3 a b = some true ↔ a = some true ∨ b = some true := by
  rcases a with _ | _ | _ <;> rcases b with _ | _ | _ <;> simp [or3]

theorem not3_true (a : Option Bool) (h : a ≠ none) : not3 a = some true ↔ ¬ a = some true := by
  rcases a with _ | _ | _ <;> simp_all [not3]

theorem and3_comm (a b : Option Bool) : and3 a b = and3 b a := by
  rcases a with _ | _ | _ <;> rcases b with _ | _ | _ <;> rfl

theorem in3_true (v : Option V) (ws : List (Option V)) : in3 v ws = some true ↔ ∃ x, v = some x ∧ some x ∈ ws := by
  induction ws with
  | nil => simp [in3]
  | cons w ws ih =>
    simp only [in3, or3_true, ih, List.mem_cons]
    constructor
    · rintro (h | ⟨x, h1, h2⟩)
      · cases v with
        | none => simp [cmp3] at h
        | some x =>
          cases w with
          | none => simp [cmp3] at h
          | some y =>
            have : x = y := by simpa [cmp3, cmpVal] using h
            exact ⟨x, rfl, Or.inl (by rw [this])⟩
      · exact ⟨x, h1, Or.inr h2⟩
    · rintro ⟨x, rfl, h | h⟩
      · left; rw [← h]; simp [cmp3, cmpVal]
      · exact Or.inr ⟨x, rfl, h⟩

/-- What an index query says about a row, in two-valued logic. -/
def Holds (env : Env V) : IxExpr V → Prop
  | .not e => ¬ Holds env e
  | .and l r => Holds env l ∧ Holds env r
  | .or l r => Holds env l ∨ Holds env r
  | .query c q => ∃ q', q.toScalar = some q' ∧ Scalar.Sat q' (env.val c)
  | .labels c q => Scalar.LSat q (env.list c)

/-- All queries of the index query have a meaning. -/
def Meaning : IxExpr V → Prop
  | .not e => Meaning e
  | .and l r => Meaning l ∧ Meaning r
  | .or l r => Meaning l ∧ Meaning r
  | .query _ q => q.toScalar ≠ none
  | .labels _ _ => True

/-- A plan with an index query says the same as the condition. -/
structure Says (ofBool : Bool → V) (env : Env V) (p : IxPlan V) (b : Option Bool) : Prop where
  query : ∃ q, p.query = some q ∧ Meaning q ∧
    ((Holds env q ∧ ∀ r, p.refine = some r → r.eval ofBool env = some true) ↔ b = some true)

theorem says_neg {ofBool : Bool → V} {env : Env V} {p : IxPlan V} {b : Option Bool} (h : Says ofBool env p b)
    {neg : Bool} {p' : IxPlan V} (hp : negIf neg p = some p') (hb : neg = true → b ≠ none) :
    Says ofBool env p' (neg3 neg b) := by
  cases neg with
  | false => simp [negIf] at hp; subst hp; exact h
  | true =>
    obtain ⟨q, h1, hm, h2⟩ := h.query
    obtain ⟨pq, pr⟩ := p
    simp only at h1
    subst h1
    simp only [negIf, IxPlan.maybeNot, if_true] at hp
    cases pr with
    | some r => simp at hp
    | none =>
      simp only [Option.some.injEq] at hp
      subst hp
      refine ⟨.not q, rfl, hm, ?_⟩
      simp only [neg3, if_true]
      rw [not3_true b (hb rfl), ← h2]
      simp [Holds]

theorem indexedCol_some {I : Info V} {t : Tm V} {c : Nat} {b : Bool} (h : indexedCol I t = some (c, b)) :
    t = .col c := by
  cases t with
  | col c' => simp [indexedCol] at h; rw [h.2]
  | lit w => cases h
  | other k => cases h

theorem maybeScalar_some {I : Info V} {env : Env V} (hI : InfoOK I env) {c : Nat} {t : Tm V} {w : Option V}
    (h : maybeScalar I c t = some w) : t = .lit w := by
  cases t with
  | col c' => cases h
  | other k => cases h
  | lit w' => rw [hI.coerce c w' w h]

theorem maybeScalars_some {I : Info V} {env : Env V} (hI : InfoOK I env) {c : Nat} {ts : List (Tm V)}
    {ws : List (Option V)} (h : maybeScalars I c ts = some ws) : ts = ws.map .lit := by
  induction ts generalizing ws with
  | nil => simp [maybeScalars] at h; subst h; rfl
  | cons t ts ih =>
    simp only [maybeScalars] at h
    cases h1 : maybeScalar I c t with
    | none => rw [h1] at h; cases h
    | some w =>
      cases h2 : maybeScalars I c ts with
      | none => rw [h1, h2] at h; cases h
      | some ws' =>
        rw [h1, h2] at h
        simp only [Option.some.injEq] at h
        subst h
        rw [maybeScalar_some hI h1, ih h2]
        rfl

theorem le_ne_iff (a b : V) : (LinOrd.le a b && a != b) = true ↔ LinOrd.le a b = true ∧ a ≠ b := by
  simp

theorem says_between {ofBool : Bool → V} {env : Env V} (c : Nat) (l h : V) :
    Says ofBool env (.indexQuery (.query c (.range (.incl (some l)) (.incl (some h)))))
      (and3 (cmp3 .ge (env.val c) (some l)) (cmp3 .le (env.val c) (some h))) := by
  refine ⟨_, rfl, by simp [Meaning, SQuery.toScalar], ?_⟩
  rw [and3_true]
  simp only [Holds, SQuery.toScalar, IxPlan.indexQuery]
  cases hv : env.val c with
  | none => simp [Scalar.Sat, cmp3]
  | some v => simp [Scalar.Sat, cmp3, cmpVal, Scalar.Above, Scalar.Below]

theorem visitBetween_says {I : Info V} {env : Env V} (hI : InfoOK I env) {t lo hi : Tm V} {neg : Bool} {p : IxPlan V}
    (h : visitBetween I t lo hi neg = some p) (hl : lo.NotNull) (hh : hi.NotNull)
    (hn : neg = true → (Expr.between t lo hi false).eval I.ofBool env ≠ none) :
    Says I.ofBool env p ((Expr.between t lo hi neg).eval I.ofBool env) := by
  unfold visitBetween at h
  cases h1 : indexedCol I t with
  | none => rw [h1] at h; cases h
  | some cb =>
    obtain ⟨c, b⟩ := cb
    rw [h1] at h
    simp only at h
    cases h2 : maybeScalar I c lo with
    | none => rw [h2] at h; cases h
    | some wl =>
      cases h3 : maybeScalar I c hi with
      | none => rw [h2, h3] at h; cases h
      | some wh =>
        rw [h2, h3] at h
        simp only at h
        cases indexedCol_some h1
        rw [maybeScalar_some hI h2] at hl hn ⊢
        rw [maybeScalar_some hI h3] at hh hn ⊢
        cases wl with
        | none => exact absurd rfl hl
        | some l =>
          cases wh with
          | none => exact absurd rfl hh
          | some u =>
            have := says_neg (says_between (ofBool := I.ofBool) (env := env) c l u) h
              (by intro hneg; simpa [Expr.eval, neg3, Tm.eval] using hn hneg)
            simpa [Expr.eval, Tm.eval] using this

theorem says_cmp {ofBool : Bool → V} {env : Env V} (c : Nat) (w : V) (op : Cmp) (hop : op ≠ .ne) :
    Says ofBool env (.indexQuery (.query c (cmpQuery (some w) op))) (cmp3 op (env.val c) (some w)) := by
  have hm : (cmpQuery (some w) op).toScalar ≠ none := by cases op <;> simp [cmpQuery, SQuery.toScalar]
  refine ⟨_, rfl, hm, ?_⟩
  simp only [Holds, IxPlan.indexQuery]
  cases hv : env.val c with
  | none => cases op <;> simp [cmpQuery, SQuery.toScalar, Scalar.Sat, cmp3]
  | some v =>
    cases op with
    | ne => exact absurd rfl hop
    | gt =>
      simp only [cmpQuery, SQuery.toScalar, Scalar.Sat, cmp3, cmpVal, Scalar.Above, Scalar.Below]
      simp
      intro _
      exact ⟨fun h h' => h h'.symm, fun h h' => h h'.symm⟩
    | _ => simp [cmpQuery, SQuery.toScalar, Scalar.Sat, cmp3, cmpVal, Scalar.Above, Scalar.Below]

theorem visitCmp_says {I : Info V} {env : Env V} (hI : InfoOK I env) {op : Cmp} {l r : Tm V} {p : IxPlan V}
    (h : visitCmp I op l r = some p) (hr : r.NotNull)
    (hn : (Expr.cmp op l r).NegOK I.ofBool env) : Says I.ofBool env p ((Expr.cmp op l r).eval I.ofBool env) := by
  unfold visitCmp at h
  cases h1 : indexedCol I l with
  | none => rw [h1] at h; cases h
  | some cb =>
    obtain ⟨c, b⟩ := cb
    rw [h1] at h
    simp only at h
    cases h2 : maybeScalar I c r with
    | none => rw [h2] at h; cases h
    | some w =>
      rw [h2] at h
      simp only at h
      cases indexedCol_some h1
      rw [maybeScalar_some hI h2] at hr hn ⊢
      cases w with
      | none => exact absurd rfl hr
      | some x =>
        by_cases hop : op = .ne
        · subst hop
          have hv : env.val c ≠ none := hn.1
          have := says_neg (says_cmp (ofBool := I.ofBool) (env := env) c x .eq (by decide)) h
            (by
              intro _
              cases hv' : env.val c with
              | none => exact absurd hv' hv
              | some v => simp [cmp3])
          cases hv' : env.val c with
          | none => exact absurd hv' hv
          | some v =>
            rw [hv'] at this
            simp [cmp3, cmpVal, neg3, not3] at this
            simpa [Expr.eval, Tm.eval, cmp3, cmpVal, hv', bne] using this
        · have := says_neg (says_cmp (ofBool := I.ofBool) (env := env) c x op hop) h
            (by intro hc; exact absurd (by simpa using hc) hop)
          simpa [hop, neg3, Expr.eval, Tm.eval] using this

theorem visitInList_says {I : Info V} {env : Env V} (hI : InfoOK I env) {t : Tm V} {ws : List (Tm V)} {neg : Bool}
    {p : IxPlan V} (h : visitInList I t ws neg = some p) (hw : ∀ w ∈ ws, w.NotNull)
    (hn : neg = true → (Expr.inList t ws false).eval I.ofBool env ≠ none) :
    Says I.ofBool env p ((Expr.inList t ws neg).eval I.ofBool env) := by
  unfold visitInList at h
  cases h1 : indexedCol I t with
  | none => rw [h1] at h; cases h
  | some cb =>
    obtain ⟨c, b⟩ := cb
    rw [h1] at h
    simp only at h
    cases h2 : maybeScalars I c ws with
    | none => rw [h2] at h; cases h
    | some vs =>
      rw [h2] at h
      simp only at h
      cases indexedCol_some h1
      rw [maybeScalars_some hI h2] at hw hn ⊢
      have hvs : (vs.map Tm.lit).map (Tm.eval env) = vs := by
        rw [List.map_map]
        conv => rhs; rw [← List.map_id vs]
        rfl
      have hnn : none ∉ vs := by
        intro hc
        exact hw (.lit none) (List.mem_map_of_mem hc) rfl
      have hs : Says I.ofBool env (.indexQuery (.query c (.isIn vs))) (in3 (env.val c) vs) := by
        refine ⟨_, rfl, by simp [Meaning, SQuery.toScalar], ?_⟩
        rw [in3_true]
        simp only [Holds, SQuery.toScalar, IxPlan.indexQuery, Option.some.injEq, exists_eq_left', Scalar.Sat,
          reduceCtorEq, false_implies, implies_true, and_true]
        constructor
        · intro hin
          cases hv : env.val c with
          | none => rw [hv] at hin; exact absurd hin hnn
          | some x => exact ⟨x, rfl, by rw [← hv]; exact hin⟩
        · rintro ⟨x, hx, hin⟩
          rw [hx]; exact hin
      have := says_neg hs h (by
        intro hneg
        have := hn hneg
        simp only [Expr.eval, neg3, Tm.eval, hvs] at this
        simpa using this)
      simpa [Expr.eval, Tm.eval, hvs] using this

theorem visitIsNull_says {I : Info V} {env : Env V} {t : Tm V} {neg : Bool}
    {p : IxPlan V} (h : visitIsNull I t neg = some p) :
    Says I.ofBool env p (neg3 neg (some (t.eval env == none))) := by
  unfold visitIsNull at h
  cases h1 : indexedCol I t with
  | none => rw [h1] at h; cases h
  | some cb =>
    obtain ⟨c, b⟩ := cb
    rw [h1] at h
    simp only at h
    cases indexedCol_some h1
    refine says_neg ?_ h (by simp)
    refine ⟨_, rfl, by simp [Meaning, SQuery.toScalar], ?_⟩
    simp [Holds, SQuery.toScalar, IxPlan.indexQuery, Scalar.Sat, Tm.eval]

theorem visitBool_says {I : Info V} {env : Env V} (hI : InfoOK I env) {b : Bool} {e : Expr V}
    {p : IxPlan V} (h : visitBool I b e = some p) :
    ∃ c, e = .boolCol c ∧ ((Expr.boolCol c).eval I.ofBool env = none ∨ ∃ b', (Expr.boolCol c : Expr V).eval I.ofBool env = some b') ∧
      Says I.ofBool env p (some (e.eval I.ofBool env == some b)) := by
  cases e with
  | boolCol c =>
    refine ⟨c, rfl, ?_, ?_⟩
    · cases (Expr.boolCol c : Expr V).eval I.ofBool env with
      | none => exact Or.inl rfl
      | some b' => exact Or.inr ⟨b', rfl⟩
    · unfold visitBool at h
      simp only at h
      split at h
      · rename_i hk
        simp only [Option.some.injEq] at h
        subst h
        refine ⟨_, rfl, by simp [Meaning, SQuery.toScalar], ?_⟩
        simp only [Holds, SQuery.toScalar, IxPlan.indexQuery, Option.some.injEq, exists_eq_left', Scalar.Sat,
          reduceCtorEq, false_implies, implies_true, and_true, Expr.eval]
        cases hv : env.val c with
        | none => simp
        | some v =>
          obtain ⟨b', rfl⟩ := hI.typed c v hk hv
          have hne := hI.bools
          cases b' <;> cases b <;> simp [hne, hne.symm]
      · cases h
  | _ => cases h

theorem maybeBetween_eval {ofBool : Bool → V} {env : Env V} {l r : Expr V} {t lo hi : Tm V}
    (h : maybeBetween l r = some (t, lo, hi)) (hl : l.LitOK) (hr : r.LitOK) :
    (Expr.between t lo hi false).eval ofBool env = (Expr.and l r).eval ofBool env ∧ lo.NotNull ∧ hi.NotNull := by
  unfold maybeBetween at h
  have flip : ∀ a b : Option V, cmp3 .ge a b = cmp3 .le b a := by
    intro a b
    cases a <;> cases b <;> rfl
  split at h
  · rename_i a b c d
    split at h
    · rename_i hac
      simp only [Option.some.injEq, Prod.mk.injEq] at h
      obtain ⟨rfl, rfl, rfl⟩ := h
      subst hac
      exact ⟨rfl, hl.2, hr.2⟩
    · split at h
      · rename_i hbd
        simp only [Option.some.injEq, Prod.mk.injEq] at h
        obtain ⟨rfl, rfl, rfl⟩ := h
        subst hbd
        refine ⟨?_, hr.1, hl.1⟩
        simp only [Expr.eval, neg3]
        rw [and3_comm, flip, ← flip]
        simp [flip]
      · cases h
  · rename_i a b c d
    split at h
    · rename_i hac
      simp only [Option.some.injEq, Prod.mk.injEq] at h
      obtain ⟨rfl, rfl, rfl⟩ := h
      subst hac
      refine ⟨?_, hr.2, hl.2⟩
      simp only [Expr.eval, neg3]
      rw [and3_comm]
      rfl
    · split at h
      · rename_i hbd
        simp only [Option.some.injEq, Prod.mk.injEq] at h
        obtain ⟨rfl, rfl, rfl⟩ := h
        subst hbd
        refine ⟨?_, hl.1, hr.1⟩
        simp [Expr.eval, neg3, flip]
      · cases h
  · cases h

theorem says_and {ofBool : Bool → V} {env : Env V} {p p' : IxPlan V} {a b : Option Bool} (h : Says ofBool env p a)
    (h' : Says ofBool env p' b) : Says ofBool env (p.and p') (and3 a b) := by
  obtain ⟨q, h1, hm, h2⟩ := h.query
  obtain ⟨q', h1', hm', h2'⟩ := h'.query
  obtain ⟨pq, pr⟩ := p
  obtain ⟨pq', pr'⟩ := p'
  simp only at h1 h1' h2 h2'
  subst h1; subst h1'
  refine ⟨.and q q', rfl, ⟨hm, hm'⟩, ?_⟩
  rw [and3_true, ← h2, ← h2']
  simp only [Holds, IxPlan.and]
  cases pr <;> cases pr' <;> simp [Expr.eval, and3_true] <;> grind

theorem says_refine {ofBool : Bool → V} {env : Env V} {p : IxPlan V} {a : Option Bool} (h : Says ofBool env p a)
    (e : Expr V) : Says ofBool env (p.refineWith e) (and3 a (e.eval ofBool env)) := by
  obtain ⟨q, h1, hm, h2⟩ := h.query
  obtain ⟨pq, pr⟩ := p
  simp only at h1 h2
  subst h1
  cases pr with
  | none =>
    refine ⟨q, rfl, hm, ?_⟩
    rw [and3_true, ← h2]
    simp [IxPlan.refineWith]
  | some r =>
    refine ⟨q, rfl, hm, ?_⟩
    rw [and3_true, ← h2]
    simp [IxPlan.refineWith, Expr.eval, and3_true, and_assoc]

theorem says_or {ofBool : Bool → V} {env : Env V} {p p' p'' : IxPlan V} {a b : Option Bool} (h : Says ofBool env p a)
    (h' : Says ofBool env p' b) (ho : p.maybeOr p' = some p'') : Says ofBool env p'' (or3 a b) := by
  obtain ⟨q, h1, hm, h2⟩ := h.query
  obtain ⟨q', h1', hm', h2'⟩ := h'.query
  obtain ⟨pq, pr⟩ := p
  obtain ⟨pq', pr'⟩ := p'
  simp only at h1 h1' h2 h2'
  subst h1; subst h1'
  cases pr with
  | some r => simp [IxPlan.maybeOr] at ho
  | none =>
    cases pr' with
    | some r => simp [IxPlan.maybeOr] at ho
    | none =>
      simp only [IxPlan.maybeOr, Option.some.injEq] at ho
      subst ho
      refine ⟨.or q q', rfl, ⟨hm, hm'⟩, ?_⟩
      rw [or3_true, ← h2, ← h2']
      simp [Holds]

/-- Splitting keeps the meaning. -/
theorem visit_says {I : Info V} {env : Env V} (hI : InfoOK I env) (e : Expr V) (hl : e.LitOK)
    (hn : e.NegOK I.ofBool env) {p : IxPlan V} (h : visit I e = some p) : Says I.ofBool env p (e.eval I.ofBool env) := by
  induction e generalizing p with
  | boolCol c =>
    simp only [visit] at h
    obtain ⟨_, _, _, ⟨q, h1, h2, h3⟩⟩ := visitBool_says hI h
    refine ⟨q, h1, h2, ?_⟩
    rw [h3]
    simp
  | cmp op l r => exact visitCmp_says hI h hl.2 hn
  | between t lo hi neg =>
    refine visitBetween_says hI h hl.2.1 hl.2.2 ?_
    rintro rfl
    exact hn
  | inList t ws neg =>
    refine visitInList_says hI h hl.2 ?_
    rintro rfl
    exact hn
  | isNull t => exact visitIsNull_says (neg := false) h
  | isNotNull t =>
    have := visitIsNull_says (env := env) (neg := true) h
    simpa [neg3, not3, Expr.eval, bne] using this
  | isTrue e ih =>
    obtain ⟨_, _, _, h3⟩ := visitBool_says hI h
    exact h3
  | isFalse e ih =>
    obtain ⟨_, _, _, h3⟩ := visitBool_says hI h
    exact h3
  | not e ih =>
    simp only [visit] at h
    cases hv : visit I e with
    | none => rw [hv] at h; cases h
    | some p' =>
      rw [hv] at h
      have := says_neg (neg := true) (ih hl hn.2 hv) (p' := p) (by simpa [negIf] using h) (fun _ => hn.1)
      simpa [neg3, Expr.eval] using this
  | and l r ihl ihr =>
    simp only [visit] at h
    cases hb : maybeBetween l r with
    | some x =>
      obtain ⟨t, lo, hi⟩ := x
      rw [hb] at h
      simp only at h
      obtain ⟨h1, h2, h3⟩ := maybeBetween_eval (ofBool := I.ofBool) (env := env) hb hl.1 hl.2
      have := visitBetween_says hI h h2 h3 (by intro hc; cases hc)
      rw [h1] at this
      exact this
    | none =>
      rw [hb] at h
      simp only at h
      cases hvl : visit I l with
      | none =>
        cases hvr : visit I r with
        | none => rw [hvl, hvr] at h; cases h
        | some b =>
          rw [hvl, hvr] at h
          simp only [Option.some.injEq] at h
          subst h
          have := says_refine (ihr hl.2 hn.2 hvr) l
          rw [and3_comm] at this
          exact this
      | some a =>
        cases hvr : visit I r with
        | none =>
          rw [hvl, hvr] at h
          simp only [Option.some.injEq] at h
          subst h
          exact says_refine (ihl hl.1 hn.1 hvl) r
        | some b =>
          rw [hvl, hvr] at h
          simp only [Option.some.injEq] at h
          subst h
          exact says_and (ihl hl.1 hn.1 hvl) (ihr hl.2 hn.2 hvr)
  | or l r ihl ihr =>
    simp only [visit] at h
    cases hvl : visit I l with
    | none => rw [hvl] at h; cases h
    | some a =>
      cases hvr : visit I r with
      | none => rw [hvl, hvr] at h; cases h
      | some b =>
        rw [hvl, hvr] at h
        exact says_or (ihl hl.1 hn.1 hvl) (ihr hl.2 hn.2 hvr) h
  | hasAll c ls =>
    simp only [visit] at h
    split at h
    · simp only [Option.some.injEq] at h
      subst h
      refine ⟨_, rfl, trivial, ?_⟩
      simp only [Holds, IxPlan.indexQuery, Scalar.LSat, Expr.eval]
      cases env.list c <;> simp
    · cases h
  | hasAny c ls =>
    simp only [visit] at h
    split at h
    · simp only [Option.some.injEq] at h
      subst h
      refine ⟨_, rfl, trivial, ?_⟩
      simp only [Holds, IxPlan.indexQuery, Scalar.LSat, Expr.eval]
      cases env.list c <;> simp
    · cases h
  | other k => cases h

/-! ### Evaluation -/

/-- What a mask is like. -/
structure MaskIs (m : Mask) (s : Bool × Bool) : Prop where
  allow : m.allow.isSome = s.1
  block : m.block.isSome = s.2
  plainA : ∀ a, m.allow = some a → Scalar.Plain a
  plainB : ∀ b, m.block = some b → Scalar.Plain b

theorem MaskIs.sorted {m : Mask} {s : Bool × Bool} (h : MaskIs m s) : RowSet.maskSorted m :=
  ⟨fun a ha => (h.plainA a ha).1, fun b hb => (h.plainB b hb).1⟩

/-- The columns an index query looks at. -/
def IxExpr.cols : IxExpr V → List Nat
  | .not e => e.cols
  | .and l r => l.cols ++ r.cols
  | .or l r => l.cols ++ r.cols
  | .query c _ => [c]
  | .labels c _ => [c]

/-- The indices on these columns answer exactly as far as one row is concerned. -/
structure IndexAt (X : Indices V) (cols : List Nat) (i : Nat) (env : Env V) : Prop where
  scalar : ∀ c ∈ cols, ∀ q q' m, q.toScalar = some q' → X.search c q = some m →
    Scalar.Plain m ∧ (RowSet.contains m i = true ↔ Scalar.Sat q' (env.val c))
  lists : ∀ c ∈ cols, ∀ q m, X.labels c q = some m →
    Scalar.Plain m ∧ (RowSet.contains m i = true ↔ Scalar.LSat q (env.list c))

omit [DecidableEq V] in
theorem IndexAt.mono {X : Indices V} {cols cols' : List Nat} {i : Nat} {env : Env V} (h : IndexAt X cols i env)
    (hs : ∀ c ∈ cols', c ∈ cols) : IndexAt X cols' i env :=
  ⟨fun c hc => h.scalar c (hs c hc), fun c hc => h.lists c (hs c hc)⟩

theorem evaluate_at {X : Indices V} {i : Nat} {env : Env V} (q : IxExpr V) (hX : IndexAt X q.cols i env)
    (hq : Meaning q) {s : Bool × Bool}
    (hs : shape q = some s) {m : Mask} (hm : evaluate X q = some m) :
    MaskIs m s ∧ (RowSet.selected m i = true ↔ Holds env q) := by
  induction q generalizing s m with
  | query c q =>
    simp only [shape, Option.some.injEq] at hs
    subst hs
    simp only [evaluate, Option.map_eq_some_iff] at hm
    obtain ⟨t, ht, rfl⟩ := hm
    obtain ⟨q', hq'⟩ := Option.ne_none_iff_exists'.1 hq
    obtain ⟨h1, h2⟩ := hX.scalar c (by simp [IxExpr.cols]) q q' t hq' ht
    refine ⟨⟨rfl, rfl, fun a ha => by cases ha; exact h1, fun b hb => by cases hb⟩, ?_⟩
    simp only [RowSet.selected, Holds]
    rw [h2]
    constructor
    · intro h5; exact ⟨q', hq', h5⟩
    · rintro ⟨q'', h3, h4⟩
      rw [hq'] at h3; cases h3
      exact h4
  | labels c q =>
    simp only [shape, Option.some.injEq] at hs
    subst hs
    simp only [evaluate, Option.map_eq_some_iff] at hm
    obtain ⟨t, ht, rfl⟩ := hm
    obtain ⟨h1, h2⟩ := hX.lists c (by simp [IxExpr.cols]) q t ht
    refine ⟨⟨rfl, rfl, fun a ha => by cases ha; exact h1, fun b hb => by cases hb⟩, ?_⟩
    simp only [RowSet.selected, Holds]
    exact h2
  | not e ih =>
    simp only [evaluate, Option.map_eq_some_iff] at hm
    obtain ⟨t, ht, rfl⟩ := hm
    simp only [shape] at hs
    have key : ∀ s', shape e = some s' → s'.1 ≠ s'.2 → s = (s'.2, s'.1) →
        MaskIs (RowSet.maskNot t) s ∧ (RowSet.selected (RowSet.maskNot t) i = true ↔ Holds env (.not e)) := by
      intro s' h1 h2 h3
      obtain ⟨h4, h5⟩ := ih hX hq h1 ht
      refine ⟨?_, ?_⟩
      · subst h3
        exact ⟨h4.block, h4.allow, h4.plainB, h4.plainA⟩
      · rw [RowSet.C04_not_partial t (by rw [h4.allow, h4.block]; exact h2) i]
        simp only [Holds, ← h5]
        simp
    split at hs
    · rename_i h1
      simp only [Option.some.injEq] at hs
      exact key _ h1 (by simp) hs.symm
    · rename_i h1
      simp only [Option.some.injEq] at hs
      exact key _ h1 (by simp) hs.symm
    · cases hs
  | and l r ihl ihr =>
    simp only [evaluate] at hm
    cases h1 : evaluate X l with
    | none => rw [h1] at hm; cases hm
    | some a =>
      cases h2 : evaluate X r with
      | none => rw [h1, h2] at hm; cases hm
      | some b =>
        rw [h1, h2] at hm
        simp only [Option.some.injEq] at hm
        subst hm
        simp only [shape] at hs
        cases h3 : shape l with
        | none => rw [h3] at hs; cases hs
        | some sl =>
          cases h4 : shape r with
          | none => rw [h3, h4] at hs; cases hs
          | some sr =>
            rw [h3, h4] at hs
            obtain ⟨sl1, sl2⟩ := sl
            obtain ⟨sr1, sr2⟩ := sr
            simp only [Option.some.injEq] at hs
            subst hs
            obtain ⟨h5, h6⟩ := ihl (hX.mono (fun c hc => List.mem_append_left _ hc)) hq.1 h3 h1
            obtain ⟨h7, h8⟩ := ihr (hX.mono (fun c hc => List.mem_append_right _ hc)) hq.2 h4 h2
            refine ⟨?_, ?_⟩
            · obtain ⟨aa, ab⟩ := a
              obtain ⟨ba, bb⟩ := b
              have e1 := h5.allow
              have e2 := h5.block
              have e3 := h7.allow
              have e4 := h7.block
              simp only at e1 e2 e3 e4
              subst e1; subst e2; subst e3; subst e4
              refine ⟨?_, ?_, ?_, ?_⟩
              · cases aa <;> cases ba <;> rfl
              · cases ab <;> cases bb <;> rfl
              · intro x hx
                cases aa with
                | none =>
                  cases ba with
                  | none => cases hx
                  | some y => cases hx; exact h7.plainA _ rfl
                | some z =>
                  cases ba with
                  | none => cases hx; exact h5.plainA _ rfl
                  | some y => cases hx; exact Scalar.plain_and (h5.plainA _ rfl) (h7.plainA _ rfl)
              · intro x hx
                cases ab with
                | none =>
                  cases bb with
                  | none => cases hx
                  | some y => cases hx; exact h7.plainB _ rfl
                | some z =>
                  cases bb with
                  | none => cases hx; exact h5.plainB _ rfl
                  | some y => cases hx; exact Scalar.plain_or (h5.plainB _ rfl) (h7.plainB _ rfl)
            · rw [RowSet.C04_and_partial a b h5.sorted h7.sorted (fun x hx _ => (h7.plainB x hx).noFull) i,
                Bool.and_eq_true, h6, h8]
              rfl
  | or l r ihl ihr =>
    simp only [evaluate] at hm
    cases h1 : evaluate X l with
    | none => rw [h1] at hm; cases hm
    | some a =>
      cases h2 : evaluate X r with
      | none => rw [h1, h2] at hm; cases hm
      | some b =>
        rw [h1, h2] at hm
        simp only [Option.some.injEq] at hm
        subst hm
        simp only [shape] at hs
        cases h3 : shape l with
        | none => rw [h3] at hs; cases hs
        | some sl =>
          cases h4 : shape r with
          | none => rw [h3, h4] at hs; simp at hs
          | some sr =>
            rw [h3, h4] at hs
            obtain ⟨h5, h6⟩ := ihl (hX.mono (fun c hc => List.mem_append_left _ hc)) hq.1 h3 h1
            obtain ⟨h7, h8⟩ := ihr (hX.mono (fun c hc => List.mem_append_right _ hc)) hq.2 h4 h2
            obtain ⟨aa, ab⟩ := a
            obtain ⟨ba, bb⟩ := b
            have e1 := h5.allow
            have e2 := h5.block
            have e3 := h7.allow
            have e4 := h7.block
            simp only at e1 e2 e3 e4
            have hor : RowSet.orSafe ⟨aa, ab⟩ ⟨ba, bb⟩ i →
                (RowSet.selected (RowSet.maskOr ⟨aa, ab⟩ ⟨ba, bb⟩) i = true ↔ Holds env (.or l r)) := by
              intro hsafe
              rw [RowSet.C04_or_partial _ _ h5.sorted h7.sorted i hsafe, Bool.or_eq_true, h6, h8]
              rfl
            split at hs
            · rename_i hl hr
              simp only [Option.some.injEq] at hl hr hs
              subst hl; subst hr; subst hs
              cases aa <;> cases ab <;> cases ba <;> cases bb <;> simp at e1 e2 e3 e4
              rename_i x y
              refine ⟨⟨rfl, rfl, ?_, fun b hb => nomatch hb⟩, hor ?_⟩
              · intro z hz; cases hz; exact Scalar.plain_or (h5.plainA _ rfl) (h7.plainA _ rfl)
              · exact Or.inl ⟨x, y, rfl, rfl, (h7.plainA y rfl).noFull⟩
            · rename_i hl hr
              simp only [Option.some.injEq] at hl hr hs
              subst hl; subst hr; subst hs
              cases aa <;> cases ab <;> cases ba <;> cases bb <;> simp at e1 e2 e3 e4
              rename_i x y
              refine ⟨⟨rfl, rfl, fun b hb => (nomatch hb), ?_⟩, hor ?_⟩
              · intro z hz; cases hz; exact Scalar.plain_and (h5.plainB _ rfl) (h7.plainB _ rfl)
              · exact Or.inr (Or.inl ⟨x, y, rfl, rfl⟩)
            · cases hs

theorem evaluate_spec {X : Indices V} {T : Table V} (hX : IndexOK X T) {i : Nat} {env : Env V} (hT : (i, env) ∈ T)
    (hd : ∀ e, (i, e) ∈ T → e = env) (hi : i < 2 ^ 64) (q : IxExpr V) (hq : Meaning q) {s : Bool × Bool}
    (hs : shape q = some s) {m : Mask} (hm : evaluate X q = some m) :
    MaskIs m s ∧ (RowSet.selected m i = true ↔ Holds env q) := by
  refine evaluate_at q ⟨?_, ?_⟩ hq hs hm
  · intro c _ q q' t hq' ht
    obtain ⟨h1, h2⟩ := hX.scalar c q q' t hq' ht
    refine ⟨h1, ?_⟩
    rw [h2 i hi]
    simp only [List.mem_map]
    constructor
    · rintro ⟨v, ⟨⟨j, e⟩, h3, h4⟩, h5⟩
      simp only [Prod.mk.injEq] at h4
      obtain ⟨rfl, rfl⟩ := h4
      rw [hd e h3] at h5
      exact h5
    · intro h4
      exact ⟨_, ⟨(i, env), hT, rfl⟩, h4⟩
  · intro c _ q t ht
    obtain ⟨h1, h2⟩ := hX.lists c q t ht
    refine ⟨h1, ?_⟩
    rw [h2 i hi]
    constructor
    · rintro ⟨e, h3, h4⟩
      rw [hd e h3] at h4
      exact h4
    · intro h4
      exact ⟨env, hT, h4⟩

end Verif.Expr
