import Verif.Iscan.LemmasIx

/-! Scans with a filter. -/
namespace Verif.Iscan
open Verif
open Verif.RowSet (TreeMap Mask contains selected newFromParts fragmentId rowOffset)
open Verif.Expr
open Verif.Scalar (LinOrd LQuery)
open Verif.Prefilter (Arrival)

variable {V : Type} [LinOrd V] [DecidableEq V]

/-- The fragments of the request that all indices of the query cover. -/
def relevant (cover : Nat → List Nat) (q : IxExpr V) (req : List (Frag V)) : List (Frag V) :=
  req.filter (fun f => (covered cover q).contains f.id)

/-- Deletion vectors and row id sequences of the fragments read through the indices arrive in any order. -/
def SchedOK (stable : Bool) (ds req : List (Frag V)) (cover : Nat → List Nat) (s : Sched V) (q : IxExpr V) : Prop :=
  (stable = true → s.arrive.Perm (relevant cover q req)) ∧
  (stable = false → Arrival (ds.map Frag.pf) ((relevant cover q req).map (·.id)) s.order)

/-- Chosen fragments are fragments of the dataset, each chosen once. -/
def ChosenOK (ds : List (Frag V)) (chosen : Option (List (Frag V))) : Prop :=
  ∀ l, chosen = some l → (∀ f ∈ l, f ∈ ds) ∧ (l.map (·.id)).Nodup

theorem ChosenOK.req {ds : List (Frag V)} {chosen : Option (List (Frag V))} (h : ChosenOK ds chosen)
    (hd : (ds.map (·.id)).Nodup) : (∀ f ∈ chosen.getD ds, f ∈ ds) ∧ ((chosen.getD ds).map (·.id)).Nodup := by
  cases chosen with
  | none => exact ⟨fun f hf => hf, hd⟩
  | some l => exact h l rfl

omit [LinOrd V] [DecidableEq V] in
theorem negIf_query {neg : Bool} {q : IxExpr V} {p : IxPlan V} (h : negIf neg (.indexQuery q) = some p) :
    p.query ≠ none := by
  cases neg <;> · simp only [negIf, IxPlan.maybeNot, IxPlan.indexQuery] at h; cases h; simp

omit [LinOrd V] [DecidableEq V] in
theorem visitBetween_query {I : Info V} {t lo hi : Tm V} {neg : Bool} {p : IxPlan V}
    (h : visitBetween I t lo hi neg = some p) : p.query ≠ none := by
  unfold visitBetween at h
  split at h
  · cases h
  · split at h
    · exact negIf_query h
    · cases h

omit [LinOrd V] [DecidableEq V] in
theorem visitBool_query {I : Info V} {b : Bool} {e : Expr V} {p : IxPlan V} (h : visitBool I b e = some p) :
    p.query ≠ none := by
  unfold visitBool at h
  split at h
  · split at h
    · cases h; simp [IxPlan.indexQuery]
    · cases h
  · cases h

omit [LinOrd V] in
/-- A plan made by the visitor has an index query. -/
theorem visit_query {I : Info V} {e : Expr V} {p : IxPlan V} (h : visit I e = some p) : p.query ≠ none := by
  induction e generalizing p with
  | boolCol c => exact visitBool_query h
  | isTrue e => exact visitBool_query h
  | isFalse e => exact visitBool_query h
  | cmp op l r =>
    simp only [visit, visitCmp] at h
    split at h
    · cases h
    · split at h
      · cases h
      · exact negIf_query h
  | between t lo hi neg => exact visitBetween_query h
  | inList t ws neg =>
    simp only [visit, visitInList] at h
    split at h
    · cases h
    · split at h
      · exact negIf_query h
      · cases h
  | isNull t =>
    simp only [visit, visitIsNull] at h
    split at h
    · cases h
    · exact negIf_query h
  | isNotNull t =>
    simp only [visit, visitIsNull] at h
    split at h
    · cases h
    · exact negIf_query h
  | not e ih =>
    simp only [visit] at h
    cases hv : visit I e with
    | none => rw [hv] at h; cases h
    | some a =>
      rw [hv] at h
      have := ih hv
      simp only [IxPlan.maybeNot] at h
      split at h <;> first | cases h; simp; done | (rename_i h1 h2; exact absurd h1 this) | cases h
  | and l r ihl ihr =>
    simp only [visit] at h
    split at h
    · exact visitBetween_query h
    · cases hl : visit I l with
      | none =>
        cases hr : visit I r with
        | none => rw [hl, hr] at h; cases h
        | some b =>
          rw [hl, hr] at h
          cases h
          have := ihr hr
          unfold IxPlan.refineWith
          split <;> exact this
      | some a =>
        have := ihl hl
        cases hr : visit I r with
        | none =>
          rw [hl, hr] at h
          cases h
          unfold IxPlan.refineWith
          split <;> exact this
        | some b =>
          rw [hl, hr] at h
          cases h
          obtain ⟨qa, ra⟩ := a
          obtain ⟨qb, rb⟩ := b
          cases qa with
          | none => exact absurd rfl this
          | some x => cases qb <;> simp [IxPlan.and]
  | or l r ihl ihr =>
    simp only [visit] at h
    cases hl : visit I l with
    | none => rw [hl] at h; cases h
    | some a =>
      cases hr : visit I r with
      | none => rw [hl, hr] at h; cases h
      | some b =>
        rw [hl, hr] at h
        simp only [IxPlan.maybeOr] at h
        split at h
        · split at h
          · cases h; simp
          · cases h
        · cases h
  | hasAll c ls =>
    simp only [visit] at h
    split at h
    · cases h; simp [IxPlan.indexQuery]
    · cases h
  | hasAny c ls =>
    simp only [visit] at h
    split at h
    · cases h; simp [IxPlan.indexQuery]
    · cases h
  | other k => cases h

theorem filteredScan_plain {I : Info V} {stable : Bool} {ds : List (Frag V)} {chosen : Option (List (Frag V))}
    {cover : Nat → List Nat} {X : Indices V} {s : Sched V} {e : Expr V} (useIndex : Bool)
    (h : (filterPlan I useIndex e).query = none ∨ (chosen.getD ds).any (fun f => !f.counted) = true ∨ useIndex = false) :
    filteredScan I useIndex stable ds chosen cover X s e =
      some (((chosen.getD ds).flatMap (Frag.live stable)).filter (fun r => e.eval I.ofBool r.2 == some true)) := by
  have hno : (filterPlan I useIndex e).query = none → filterPlan I useIndex e = ⟨none, some e⟩ := by
    intro hq
    unfold filterPlan at hq ⊢
    cases useIndex with
    | false => rfl
    | true =>
      simp only [if_true] at hq ⊢
      unfold applyIndices at hq ⊢
      cases hv : visit I e with
      | none => rfl
      | some p =>
        rw [hv] at hq
        simp only at hq
        exact absurd hq (visit_query hv)
  have hno' : (filterPlan I useIndex e).query = none ∨ (chosen.getD ds).any (fun f => !f.counted) = true := by
    rcases h with h | h | h
    · exact Or.inl h
    · exact Or.inr h
    · subst h; exact Or.inl rfl
  have hplan : (if (filterPlan I useIndex e).query.isSome && (chosen.getD ds).any (fun f => !f.counted)
      then filterPlan I false e else filterPlan I useIndex e) = ⟨none, some e⟩ := by
    cases hq : (filterPlan I useIndex e).query with
    | none => rw [hno hq]; rfl
    | some q =>
      rw [hq] at hno'
      rcases hno' with h | h
      · cases h
      · rw [h]; rfl
  unfold filteredScan
  simp only [hplan]
  rfl

/-- A filter of which nothing is negated makes no trouble below a `NOT`. -/
theorem strict_of_negFree (ofBool : Bool → V) (env : Env V) (e : Expr V) (h : e.NegFree) : Strict ofBool env e := by
  induction e with
  | not e => cases h
  | and l r ihl ihr => exact ⟨ihl h.1, ihr h.2⟩
  | or l r ihl ihr => exact ⟨ihl h.1, ihr h.2⟩
  | _ => trivial

theorem boolsOK_of_full (ofBool : Bool → V) {env : Env V} (h : env.Full) (e : Expr V) (hl : e.LitOK) :
    BoolsOK ofBool env e := by
  induction e with
  | isTrue e => exact (eval_full ofBool h e hl).1
  | isFalse e => exact (eval_full ofBool h e hl).1
  | not e ih => exact ih hl
  | and l r ihl ihr => exact ⟨ihl hl.1, ihr hl.2⟩
  | or l r ihl ihr => exact ⟨ihl hl.1, ihr hl.2⟩
  | _ => trivial

theorem strict_of_full (ofBool : Bool → V) {env : Env V} (h : env.Full) (e : Expr V) (hl : e.LitOK) :
    Strict ofBool env e := by
  induction e with
  | not e ih => exact boolsOK_of_full ofBool h e hl
  | and l r ihl ihr => exact ⟨ihl hl.1, ihr hl.2⟩
  | or l r ihl ihr => exact ⟨ihl hl.1, ihr hl.2⟩
  | _ => trivial

/-- The main lemma. -/
theorem filteredScan_perm (I : Info V) (useIndex stable : Bool) (ds : List (Frag V)) (chosen : Option (List (Frag V)))
    (cover : Nat → List Nat) (X : Indices V) (s : Sched V) (e : Expr V) (h : DsOK stable ds) (hc : ChosenOK ds chosen)
    (hX : IndicesOK stable ds cover X) (hl : e.LitOK)
    (hrow : ∀ f ∈ chosen.getD ds, ∀ r ∈ f.live stable, InfoOK I r.2 ∧ e.NegOK I.ofBool r.2 ∧ Strict I.ofBool r.2 e)
    (hq : ∀ q, (filterPlan I useIndex e).query = some q → Reliable q ∧ SchedOK stable ds (chosen.getD ds) cover s q) :
    (∀ out, filteredScan I useIndex stable ds chosen cover X s e = some out →
      out.Perm (((chosen.getD ds).flatMap (Frag.live stable)).filter (fun r => e.eval I.ofBool r.2 == some true))) ∧
    ((∀ q, (filterPlan I useIndex e).query = some q → ∃ m, evaluate X q = some m ∧
        (stable = false ∨ m.allow ≠ none ∨ m.block = none ∨ (∀ b, m.block = some b → ∀ v, v < 2 ^ 64 →
          contains b v = true → v ∈ (relevant cover q (chosen.getD ds)).flatMap (Frag.keys stable)))) →
      filteredScan I useIndex stable ds chosen cover X s e ≠ none) := by
  by_cases hpl : (filterPlan I useIndex e).query = none ∨ (chosen.getD ds).any (fun f => !f.counted) = true ∨
      useIndex = false
  · rw [filteredScan_plain useIndex hpl]
    refine ⟨fun out ho => ?_, fun _ => by simp⟩
    cases ho
    exact List.Perm.refl _
  · have h1 : (filterPlan I useIndex e).query ≠ none := fun h => hpl (Or.inl h)
    have h2 : (chosen.getD ds).any (fun f => !f.counted) = false := by
      rw [← Bool.not_eq_true]; exact fun h => hpl (Or.inr (Or.inl h))
    have h3 : useIndex = true := by
      rw [← Bool.not_eq_false]; exact fun h => hpl (Or.inr (Or.inr h))
    subst h3
    obtain ⟨q, hqq⟩ := Option.ne_none_iff_exists'.1 h1
    obtain ⟨hrel, hsch⟩ := hq q hqq
    obtain ⟨hf, hd⟩ := hc.req h.ids
    have hv : visit I e = some (filterPlan I true e) := by
      unfold filterPlan applyIndices at hqq ⊢
      simp only [if_true] at hqq ⊢
      cases hv : visit I e with
      | none => rw [hv] at hqq; cases hqq
      | some p => rfl
    have hsays : ∀ f ∈ chosen.getD ds, ∀ r ∈ f.live stable, Meaning q ∧ ((Holds r.2 q ∧
        ∀ x, (filterPlan I true e).refine = some x → x.eval I.ofBool r.2 = some true) ↔
          e.eval I.ofBool r.2 = some true) ∧ (((toExpr q).eval I.ofBool r.2 = some true ∧
        ∀ x, (filterPlan I true e).refine = some x → x.eval I.ofBool r.2 = some true) ↔
          e.eval I.ofBool r.2 = some true) := by
      intro f hfm r hr
      obtain ⟨i1, i2, i3⟩ := hrow f hfm r hr
      obtain ⟨q1, a1, a2, a3⟩ := (visit_says i1 e hl i2 hv).query
      obtain ⟨q2, b1, b2, b3⟩ := (visit_back i1 e hl hv).query
      rw [hqq] at a1 b1
      cases a1
      cases b1
      exact ⟨a2, a3, b3 i3⟩
    have huniq : ∀ f ∈ chosen.getD ds, ∀ g ∈ chosen.getD ds, ∀ r, r ∈ f.live stable → r ∈ g.live stable → f = g := by
      intro f hfm g hgm r hr hr'
      exact flatMap_disjoint (nodup_keys h) (hf f hfm) (hf g hgm)
        ((live_sublist stable f).subset (List.mem_map.mpr ⟨r, hr, rfl⟩))
        ((live_sublist stable g).subset (List.mem_map.mpr ⟨r, hr', rfl⟩))
    -- what the scan keeps before the refinement
    obtain ⟨p, hp⟩ : ∃ p : Nat × Env V → Bool, ∀ r, p r = true ↔ ∃ f ∈ chosen.getD ds, r ∈ f.live stable ∧
        ((f.id ∈ covered cover q ∧ Holds r.2 q) ∨
          (f.id ∉ covered cover q ∧ (toExpr q).eval I.ofBool r.2 = some true)) := by
      classical
      exact ⟨fun r => decide _, fun r => decide_eq_true_iff⟩
    have hscan := indexedScan_perm h hf hd hX s q hsch.1 hsch.2 hrel I.ofBool p (by
      intro f hfm hcov r hr
      refine ⟨(hsays f hfm r hr).1, (hp r).trans ?_⟩
      constructor
      · rintro ⟨g, hg, hrg, h' | h'⟩
        · exact h'.2
        · rw [huniq g hg f hfm r hrg hr] at h'
          exact absurd hcov h'.1
      · intro hh
        exact ⟨f, hfm, hr, Or.inl ⟨hcov, hh⟩⟩) (by
      intro f hfm hcov r hr
      refine (hp r).trans ?_
      constructor
      · rintro ⟨g, hg, hrg, h' | h'⟩
        · rw [huniq g hg f hfm r hrg hr] at h'
          exact absurd h'.1 hcov
        · exact h'.2
      · intro hh
        exact ⟨f, hfm, hr, Or.inr ⟨hcov, hh⟩⟩)
    have hsame : ∀ r ∈ (chosen.getD ds).flatMap (Frag.live stable), (p r = true ∧
        ∀ x, (filterPlan I true e).refine = some x → x.eval I.ofBool r.2 = some true) ↔
          e.eval I.ofBool r.2 = some true := by
      intro r hr
      obtain ⟨f, hfm, hr⟩ := List.mem_flatMap.mp hr
      obtain ⟨_, k1, k2⟩ := hsays f hfm r hr
      by_cases hcov : f.id ∈ covered cover q
      · rw [← k1, hp]
        constructor
        · rintro ⟨⟨g, hg, hrg, h' | h'⟩, hx⟩
          · exact ⟨h'.2, hx⟩
          · rw [huniq g hg f hfm r hrg hr] at h'
            exact absurd hcov h'.1
        · rintro ⟨hh, hx⟩
          exact ⟨⟨f, hfm, hr, Or.inl ⟨hcov, hh⟩⟩, hx⟩
      · rw [← k2, hp]
        constructor
        · rintro ⟨⟨g, hg, hrg, h' | h'⟩, hx⟩
          · rw [huniq g hg f hfm r hrg hr] at h'
            exact absurd h'.1 hcov
          · exact ⟨h'.2, hx⟩
        · rintro ⟨hh, hx⟩
          exact ⟨⟨f, hfm, hr, Or.inr ⟨hcov, hh⟩⟩, hx⟩
    unfold filteredScan
    simp only [h2, Bool.and_false, Bool.false_eq_true, if_false, hqq]
    cases hre : (filterPlan I true e).refine with
    | none =>
      simp only
      rw [hre] at hsame
      have hfe : ((chosen.getD ds).flatMap (Frag.live stable)).filter p =
          ((chosen.getD ds).flatMap (Frag.live stable)).filter (fun r => e.eval I.ofBool r.2 == some true) := by
        apply List.filter_congr
        intro r hr
        rw [Bool.eq_iff_iff, beq_iff_eq, ← hsame r hr]
        simp
      rw [← hfe]
      refine ⟨hscan.1, fun hev => ?_⟩
      obtain ⟨m, hm, hcond⟩ := hev q rfl
      exact hscan.2 m hm hcond
    | some x =>
      simp only
      rw [hre] at hsame
      have hfe : (((chosen.getD ds).flatMap (Frag.live stable)).filter p).filter
            (fun r => x.eval I.ofBool r.2 == some true) =
          ((chosen.getD ds).flatMap (Frag.live stable)).filter (fun r => e.eval I.ofBool r.2 == some true) := by
        rw [List.filter_filter]
        apply List.filter_congr
        intro r hr
        rw [Bool.eq_iff_iff, beq_iff_eq, ← hsame r hr, Bool.and_eq_true, beq_iff_eq]
        constructor
        · rintro ⟨a, b⟩
          exact ⟨b, fun y hy => by cases hy; exact a⟩
        · rintro ⟨a, b⟩
          exact ⟨b x rfl, a⟩
      rw [← hfe]
      refine ⟨?_, fun hev => ?_⟩
      · intro out ho
        rw [Option.map_eq_some_iff] at ho
        obtain ⟨rows, ho, rfl⟩ := ho
        exact (hscan.1 rows ho).filter _
      · obtain ⟨m, hm, hcond⟩ := hev q rfl
        obtain ⟨rows, hr⟩ := Option.ne_none_iff_exists'.1 (hscan.2 m hm hcond)
        rw [hr]
        simp

end Verif.Iscan
