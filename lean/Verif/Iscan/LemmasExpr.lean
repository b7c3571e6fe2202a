import Verif.Iscan.LemmasTidy

/-! The filter that an index query is turned back into says what the original filter said. -/
namespace Verif.Iscan
open Verif
open Verif.Expr
open Verif.Scalar (LinOrd Bd LQuery)

variable {V : Type} [LinOrd V] [DecidableEq V]

/-- No `IS TRUE` or `IS FALSE` in the condition is applied to a NULL. -/
def BoolsOK (ofBool : Bool → V) (env : Env V) : Expr V → Prop
  | .isTrue e => e.eval ofBool env ≠ none
  | .isFalse e => e.eval ofBool env ≠ none
  | .not e => BoolsOK ofBool env e
  | .and l r => BoolsOK ofBool env l ∧ BoolsOK ofBool env r
  | .or l r => BoolsOK ofBool env l ∧ BoolsOK ofBool env r
  | _ => True

/-- No `IS TRUE` or `IS FALSE` below a `NOT` is applied to a NULL. -/
def Strict (ofBool : Bool → V) (env : Env V) : Expr V → Prop
  | .not e => BoolsOK ofBool env e
  | .and l r => Strict ofBool env l ∧ Strict ofBool env r
  | .or l r => Strict ofBool env l ∧ Strict ofBool env r
  | _ => True

/-- What a plan's index query says as a filter: `exact` if nothing is left to refine. -/
structure Back (ofBool : Bool → V) (env : Env V) (p : IxPlan V) (e : Expr V) : Prop where
  query : ∃ q, p.query = some q ∧
    (BoolsOK ofBool env e → p.refine = none → (toExpr q).eval ofBool env = e.eval ofBool env) ∧
    (Strict ofBool env e → (((toExpr q).eval ofBool env = some true ∧
      ∀ r, p.refine = some r → r.eval ofBool env = some true) ↔ e.eval ofBool env = some true))

/-- A plan without refinement that says exactly what the condition says. -/
theorem back_exact {ofBool : Bool → V} {env : Env V} {q : IxExpr V} {e : Expr V}
    (h : (toExpr q).eval ofBool env = e.eval ofBool env) : Back ofBool env (.indexQuery q) e :=
  ⟨q, rfl, fun _ _ => h, fun _ => by simp [IxPlan.indexQuery, h]⟩

theorem negIf_exact {ofBool : Bool → V} {env : Env V} {q : IxExpr V} {e : Expr V} {neg : Bool} {p : IxPlan V}
    (hp : negIf neg (.indexQuery q) = some p)
    (h : neg3 neg ((toExpr q).eval ofBool env) = e.eval ofBool env) : Back ofBool env p e := by
  cases neg with
  | false =>
    simp only [negIf] at hp
    cases hp
    exact back_exact h
  | true =>
    simp only [negIf, if_true, IxPlan.maybeNot, IxPlan.indexQuery] at hp
    cases hp
    exact back_exact (q := .not q) h

theorem visitBetween_back {I : Info V} {env : Env V} (hI : InfoOK I env) {t lo hi : Tm V} {neg : Bool} {p : IxPlan V}
    (h : visitBetween I t lo hi neg = some p) : Back I.ofBool env p (.between t lo hi neg) := by
  unfold visitBetween at h
  cases h1 : indexedCol I t with
  | none => rw [h1] at h; cases h
  | some cb =>
    obtain ⟨c, b⟩ := cb
    rw [h1] at h
    simp only at h
    cases h2 : maybeScalar I c lo with
    | none => rw [h2] at h; cases h
    | some wl =>
      cases h3 : maybeScalar I c hi with
      | none => rw [h2, h3] at h; cases h
      | some wh =>
        rw [h2, h3] at h
        simp only at h
        cases indexedCol_some h1
        rw [maybeScalar_some hI h2, maybeScalar_some hI h3]
        exact negIf_exact h (by simp [toExpr, queryExpr, Expr.eval, neg3])

theorem visitCmp_back {I : Info V} {env : Env V} (hI : InfoOK I env) {op : Cmp} {l r : Tm V} {p : IxPlan V}
    (h : visitCmp I op l r = some p) : Back I.ofBool env p (.cmp op l r) := by
  unfold visitCmp at h
  cases h1 : indexedCol I l with
  | none => rw [h1] at h; cases h
  | some cb =>
    obtain ⟨c, b⟩ := cb
    rw [h1] at h
    simp only at h
    cases h2 : maybeScalar I c r with
    | none => rw [h2] at h; cases h
    | some w =>
      rw [h2] at h
      simp only at h
      cases indexedCol_some h1
      rw [maybeScalar_some hI h2]
      refine negIf_exact h ?_
      have hne : ∀ a b : Option V, not3 (cmp3 .eq a b) = cmp3 .ne a b := by
        intro a b
        cases a <;> cases b <;> simp [cmp3, not3, cmpVal, bne]
      cases op <;> simp [toExpr, queryExpr, cmpQuery, Expr.eval, neg3, hne]

theorem visitInList_back {I : Info V} {env : Env V} (hI : InfoOK I env) {t : Tm V} {ws : List (Tm V)} {neg : Bool}
    {p : IxPlan V} (h : visitInList I t ws neg = some p) : Back I.ofBool env p (.inList t ws neg) := by
  unfold visitInList at h
  cases h1 : indexedCol I t with
  | none => rw [h1] at h; cases h
  | some cb =>
    obtain ⟨c, b⟩ := cb
    rw [h1] at h
    simp only at h
    cases h2 : maybeScalars I c ws with
    | none => rw [h2] at h; cases h
    | some vs =>
      rw [h2] at h
      simp only at h
      cases indexedCol_some h1
      rw [maybeScalars_some hI h2]
      exact negIf_exact h (by simp [toExpr, queryExpr, Expr.eval, neg3])

theorem visitIsNull_back {I : Info V} {env : Env V} {t : Tm V} {neg : Bool} {p : IxPlan V} {e : Expr V}
    (h : visitIsNull I t neg = some p) (he : e.eval I.ofBool env = neg3 neg (some (t.eval env == none))) :
    Back I.ofBool env p e := by
  unfold visitIsNull at h
  cases h1 : indexedCol I t with
  | none => rw [h1] at h; cases h
  | some cb =>
    obtain ⟨c, b⟩ := cb
    rw [h1] at h
    simp only at h
    cases indexedCol_some h1
    exact negIf_exact h (by simp [toExpr, queryExpr, Expr.eval, he])

theorem visitBool_back {I : Info V} {env : Env V} (hI : InfoOK I env) {b : Bool} {e : Expr V} {p : IxPlan V}
    (h : visitBool I b e = some p) : ∃ q, p = .indexQuery q ∧
      ((toExpr q).eval I.ofBool env = some true ↔ e.eval I.ofBool env = some b) ∧
      (e.eval I.ofBool env ≠ none → (toExpr q).eval I.ofBool env = some (e.eval I.ofBool env == some b)) ∧
      (b = true → (toExpr q).eval I.ofBool env = e.eval I.ofBool env) := by
  cases e with
  | boolCol c =>
    unfold visitBool at h
    simp only at h
    split at h
    · rename_i hk
      simp only [Option.some.injEq] at h
      subst h
      refine ⟨_, rfl, ?_⟩
      simp only [toExpr, queryExpr, Expr.eval, Tm.eval]
      cases hv : env.val c with
      | none => simp [cmp3]
      | some v =>
        obtain ⟨b', rfl⟩ := hI.typed c v hk hv
        have hne := hI.bools
        cases b' <;> cases b <;> simp [hne, hne.symm, cmp3, cmpVal]
    · cases h
  | _ => cases h

theorem back_not {I : Info V} {env : Env V} {e : Expr V} {p p' : IxPlan V} (h : Back I.ofBool env p' e)
    (hp : p'.maybeNot = some p) : Back I.ofBool env p (.not e) := by
  obtain ⟨q, h1, h2, _⟩ := h.query
  obtain ⟨pq, pr⟩ := p'
  simp only at h1
  subst h1
  cases pr with
  | some r => simp [IxPlan.maybeNot] at hp
  | none =>
    simp only [IxPlan.maybeNot, Option.some.injEq] at hp
    subst hp
    refine ⟨.not q, rfl, ?_, ?_⟩
    · intro hb _
      simp only [toExpr, Expr.eval, h2 hb rfl]
    · intro hs
      simp [toExpr, Expr.eval, h2 hs rfl]

theorem back_and {I : Info V} {env : Env V} {l r : Expr V} {a b : IxPlan V} (ha : Back I.ofBool env a l)
    (hb : Back I.ofBool env b r) : Back I.ofBool env (a.and b) (.and l r) := by
  obtain ⟨x, h1, h2, h3⟩ := ha.query
  obtain ⟨y, k1, k2, k3⟩ := hb.query
  obtain ⟨aq, ar⟩ := a
  obtain ⟨bq, br⟩ := b
  simp only at h1 k1 h2 k2 h3 k3
  subst h1; subst k1
  refine ⟨.and x y, rfl, ?_, ?_⟩
  · intro hB hn
    cases ar <;> cases br <;> simp [IxPlan.and] at hn
    simp only [toExpr, Expr.eval, h2 hB.1 rfl, k2 hB.2 rfl]
  · intro hS
    simp only [toExpr, Expr.eval]
    rw [and3_true, and3_true, ← h3 hS.1, ← k3 hS.2]
    cases ar <;> cases br <;> simp [IxPlan.and, Expr.eval, and3_true] <;> grind

theorem back_refine {I : Info V} {env : Env V} {l r : Expr V} {a : IxPlan V} (ha : Back I.ofBool env a l) (f : Expr V)
    (hr : Strict I.ofBool env r → Strict I.ofBool env l)
    (hf : r.eval I.ofBool env = and3 (l.eval I.ofBool env) (f.eval I.ofBool env)) :
    Back I.ofBool env (a.refineWith f) r := by
  obtain ⟨x, h1, h2, h3⟩ := ha.query
  obtain ⟨aq, ar⟩ := a
  simp only at h1 h2 h3
  subst h1
  cases ar with
  | none =>
    refine ⟨x, rfl, fun _ hn => by simp [IxPlan.refineWith] at hn, ?_⟩
    intro hS
    rw [hf, and3_true, ← h3 (hr hS)]
    simp [IxPlan.refineWith]
  | some w =>
    refine ⟨x, rfl, fun _ hn => by simp [IxPlan.refineWith] at hn, ?_⟩
    intro hS
    rw [hf, and3_true, ← h3 (hr hS)]
    simp [IxPlan.refineWith, Expr.eval, and3_true, and_assoc]

theorem back_or {I : Info V} {env : Env V} {l r : Expr V} {a b p : IxPlan V} (ha : Back I.ofBool env a l)
    (hb : Back I.ofBool env b r) (hp : a.maybeOr b = some p) : Back I.ofBool env p (.or l r) := by
  obtain ⟨x, h1, h2, h3⟩ := ha.query
  obtain ⟨y, k1, k2, k3⟩ := hb.query
  obtain ⟨aq, ar⟩ := a
  obtain ⟨bq, br⟩ := b
  simp only at h1 k1 h2 k2 h3 k3
  subst h1; subst k1
  cases ar with
  | some r => simp [IxPlan.maybeOr] at hp
  | none =>
    cases br with
    | some r => simp [IxPlan.maybeOr] at hp
    | none =>
      simp only [IxPlan.maybeOr, Option.some.injEq] at hp
      subst hp
      refine ⟨.or x y, rfl, ?_, ?_⟩
      · intro hB _
        simp only [toExpr, Expr.eval, h2 hB.1 rfl, k2 hB.2 rfl]
      · intro hS
        simp only [toExpr, Expr.eval]
        rw [or3_true, or3_true, ← h3 hS.1, ← k3 hS.2]
        simp [or3_true]

/-- Splitting a filter and turning the index query back into a filter keeps its meaning. -/
theorem visit_back {I : Info V} {env : Env V} (hI : InfoOK I env) (e : Expr V) (hl : e.LitOK) {p : IxPlan V}
    (h : visit I e = some p) : Back I.ofBool env p e := by
  induction e generalizing p with
  | boolCol c =>
    obtain ⟨q, rfl, _, _, h2⟩ := visitBool_back hI h
    exact back_exact (h2 rfl)
  | cmp op l r => exact visitCmp_back hI h
  | between t lo hi neg => exact visitBetween_back hI h
  | inList t ws neg => exact visitInList_back hI h
  | isNull t => exact visitIsNull_back (neg := false) h rfl
  | isNotNull t => exact visitIsNull_back (neg := true) h (by simp [Expr.eval, neg3, not3, bne])
  | isTrue e ih =>
    obtain ⟨q, rfl, h1, h2, _⟩ := visitBool_back hI h
    exact ⟨q, rfl, fun hB _ => h2 hB, fun _ => by simp [IxPlan.indexQuery, h1, Expr.eval]⟩
  | isFalse e ih =>
    obtain ⟨q, rfl, h1, h2, _⟩ := visitBool_back hI h
    exact ⟨q, rfl, fun hB _ => h2 hB, fun _ => by simp [IxPlan.indexQuery, h1, Expr.eval]⟩
  | not e ih =>
    simp only [visit] at h
    cases hv : visit I e with
    | none => rw [hv] at h; cases h
    | some p' =>
      rw [hv] at h
      exact back_not (ih hl hv) h
  | and l r ihl ihr =>
    simp only [visit] at h
    cases hb : maybeBetween l r with
    | some x =>
      obtain ⟨t, lo, hi⟩ := x
      rw [hb] at h
      simp only at h
      obtain ⟨q, h1, h2, h3⟩ := (visitBetween_back hI h).query
      have he := (maybeBetween_eval (ofBool := I.ofBool) (env := env) hb hl.1 hl.2).1
      rw [he] at h2 h3
      exact ⟨q, h1, fun _ => h2 trivial, fun _ => h3 trivial⟩
    | none =>
      rw [hb] at h
      simp only at h
      cases hvl : visit I l with
      | none =>
        cases hvr : visit I r with
        | none => rw [hvl, hvr] at h; cases h
        | some b =>
          rw [hvl, hvr] at h
          simp only [Option.some.injEq] at h
          subst h
          exact back_refine (ihr hl.2 hvr) l (fun hS => hS.2) (by simp only [Expr.eval]; rw [and3_comm])
      | some a =>
        cases hvr : visit I r with
        | none =>
          rw [hvl, hvr] at h
          simp only [Option.some.injEq] at h
          subst h
          exact back_refine (ihl hl.1 hvl) r (fun hS => hS.1) rfl
        | some b =>
          rw [hvl, hvr] at h
          simp only [Option.some.injEq] at h
          subst h
          exact back_and (ihl hl.1 hvl) (ihr hl.2 hvr)
  | or l r ihl ihr =>
    simp only [visit] at h
    cases hvl : visit I l with
    | none => rw [hvl] at h; cases h
    | some a =>
      cases hvr : visit I r with
      | none => rw [hvl, hvr] at h; cases h
      | some b =>
        rw [hvl, hvr] at h
        exact back_or (ihl hl.1 hvl) (ihr hl.2 hvr) h
  | hasAll c ls =>
    simp only [visit] at h
    split at h
    · cases h; exact back_exact rfl
    · cases h
  | hasAny c ls =>
    simp only [visit] at h
    split at h
    · cases h; exact back_exact rfl
    · cases h
  | other k => cases h

end Verif.Iscan
