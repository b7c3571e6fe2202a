import Verif.Expr.LemmasIndex

/-! C39: splitting a filter into an index query and a refine filter keeps its meaning. -/
namespace Verif.Expr
open Verif
open Verif.RowSet (TreeMap Mask)
open Verif.Scalar (LinOrd Bd LQuery)

/-- C39 in full, for bitmap and label list indices built from the table: a row passes the plan exactly if the filter
is true on it. -/
def C39_filter_statement : Prop :=
  ∀ (V : Type) [LinOrd V] [DecidableEq V] (I : Info V) (shuffle : List (Option V × TreeMap) → List (Option V × TreeMap))
    (nul : SQuery V → Option TreeMap) (T : Table V) (e : Expr V),
    (∀ l, (shuffle l).Perm l) → (∀ r ∈ T, r.1 < 2 ^ 64) → (T.map (·.1)).Nodup → (∀ r ∈ T, InfoOK I r.2) →
    ∀ i env, (i, env) ∈ T →
      (Passes I.ofBool (bitmapIndices shuffle nul T) (filterPlan I true e) i env ↔ e.eval I.ofBool env = some true)

/-! ### Violations -/

/-- All columns have an index; literals are of the type of the column. -/
def exInfo : Info Nat := ⟨fun _ => some false, fun _ => true, fun _ w => some w, fun b => if b then 1 else 0⟩

/-- A row with two scalar columns. -/
def exRow (a b : Option Nat) : Env Nat := ⟨fun c => if c = 0 then a else b, fun _ => none, fun _ => none, fun _ => none⟩

theorem exInfo_ok (env : Env Nat) : InfoOK exInfo env :=
  ⟨fun _ _ _ h => (Option.some.inj h).symm, by decide, fun _ _ h => by simp [exInfo] at h⟩

/-- Computable form of `Passes`. -/
def passes {V : Type} [LinOrd V] [DecidableEq V] (ofBool : Bool → V) (X : Indices V) (p : IxPlan V) (i : Nat)
    (env : Env V) : Bool :=
  (match p.query with
    | some q => (evaluate X q).any (fun m => RowSet.selected m i)
    | none => true) &&
  (match p.refine with
    | some r => r.eval ofBool env == some true
    | none => true)

theorem passes_iff {V : Type} [LinOrd V] [DecidableEq V] (ofBool : Bool → V) (X : Indices V) (p : IxPlan V) (i : Nat)
    (env : Env V) : passes ofBool X p i env = true ↔ Passes ofBool X p i env := by
  obtain ⟨q, r⟩ := p
  unfold passes Passes
  rw [Bool.and_eq_true]
  refine and_congr ?_ ?_
  · cases q with
    | none => simp
    | some q => cases h : evaluate X q <;> simp [h]
  · cases r <;> simp

/-- The indices of the examples. -/
def exIndices (T : Table Nat) : Indices Nat := bitmapIndices id (fun _ => none) T

/-- `x != 5` returns the rows where `x` is NULL. -/
theorem C39_not_equal_null_violated :
    ∃ T : Table Nat, ∃ i env, (i, env) ∈ T ∧
      Passes exInfo.ofBool (exIndices T) (filterPlan exInfo true (.cmp .ne (.col 0) (.lit (some 5)))) i env ∧
      (Expr.cmp .ne (.col 0) (.lit (some 5))).eval exInfo.ofBool env = none := by
  refine ⟨[(0, exRow none none), (1, exRow (some 5) none)], 0, exRow none none, by simp, ?_, ?_⟩
  · rw [← passes_iff]; decide +kernel
  · decide +kernel

/-- `NOT (x BETWEEN 2 AND 4)` and `x NOT IN (5)` return them as well. -/
theorem C39_not_null_violated :
    ∃ T : Table Nat, ∃ i env, (i, env) ∈ T ∧
      Passes exInfo.ofBool (exIndices T)
        (filterPlan exInfo true (.between (.col 0) (.lit (some 2)) (.lit (some 4)) true)) i env ∧
      Passes exInfo.ofBool (exIndices T) (filterPlan exInfo true (.inList (.col 0) [.lit (some 5)] true)) i env ∧
      (Expr.between (.col 0) (.lit (some 2)) (.lit (some 4)) true).eval exInfo.ofBool env = none ∧
      (Expr.inList (.col 0) [.lit (some 5)] true).eval exInfo.ofBool env = none := by
  refine ⟨[(0, exRow none none), (1, exRow (some 5) none)], 0, exRow none none, by simp, ?_, ?_, ?_, ?_⟩
  · rw [← passes_iff]; decide +kernel
  · rw [← passes_iff]; decide +kernel
  · decide +kernel
  · decide +kernel

/-- `x IN (5, NULL)` returns the rows where `x` is NULL. -/
theorem C39_in_null_violated :
    ∃ T : Table Nat, ∃ i env, (i, env) ∈ T ∧
      Passes exInfo.ofBool (exIndices T) (filterPlan exInfo true (.inList (.col 0) [.lit (some 5), .lit none] false)) i
        env ∧
      (Expr.inList (.col 0) [.lit (some 5), .lit none] false).eval exInfo.ofBool env = none := by
  refine ⟨[(0, exRow none none), (1, exRow (some 5) none)], 0, exRow none none, by simp, ?_, ?_⟩
  · rw [← passes_iff]; decide +kernel
  · decide +kernel

/-- `x = 2 OR y != 3` loses a row with `x = 2` and `y = 3`; there is no NULL in the table. -/
theorem C39_mixed_or_violated :
    ∃ T : Table Nat, ∃ i env, (i, env) ∈ T ∧
      ¬ Passes exInfo.ofBool (exIndices T)
        (filterPlan exInfo true (.or (.cmp .eq (.col 0) (.lit (some 2))) (.cmp .ne (.col 1) (.lit (some 3))))) i env ∧
      (Expr.or (.cmp .eq (.col 0) (.lit (some 2))) (.cmp .ne (.col 1) (.lit (some 3)))).eval exInfo.ofBool env =
        some true := by
  refine ⟨[(0, exRow (some 7) (some 4)), (1, exRow (some 2) (some 3))], 1, exRow (some 2) (some 3), by simp, ?_, ?_⟩
  · rw [← passes_iff]; decide +kernel
  · decide +kernel

/-- `x >= 5 AND x <= 3` is false everywhere, but the query for it panics (so nothing at all is returned). -/
theorem C39_crossed_violated :
    ∃ T : Table Nat, ∃ q, (filterPlan exInfo true (.and (.cmp .ge (.col 0) (.lit (some 5)))
        (.cmp .le (.col 0) (.lit (some 3))))).query = some q ∧ evaluate (exIndices T) q = none := by
  refine ⟨[(0, exRow (some 7) (some 4))], _, rfl, ?_⟩
  decide +kernel

theorem C39_filter_violated : ¬ C39_filter_statement := by
  intro h
  have := (h Nat exInfo id (fun _ => none) [(0, exRow none none), (1, exRow (some 5) none)]
    (.cmp .ne (.col 0) (.lit (some 5))) (fun l => List.Perm.refl l) (by simp) (by simp) (fun r _ => exInfo_ok r.2) 0
    (exRow none none) (by simp)).1 (by rw [← passes_iff]; decide +kernel)
  revert this
  decide +kernel

/-! ### What holds -/

section
variable {V : Type} [LinOrd V] [DecidableEq V]

theorem table_unique {T : Table V} (hd : (T.map (·.1)).Nodup) {i : Nat} {env : Env V} (h : (i, env) ∈ T) :
    ∀ e, (i, e) ∈ T → e = env := by
  intro e he
  induction T with
  | nil => cases h
  | cons r T ih =>
    rw [List.map_cons, List.nodup_cons] at hd
    rcases List.mem_cons.1 h with h | h <;> rcases List.mem_cons.1 he with he | he
    · rw [← he] at h; cases h; rfl
    · exact absurd (List.mem_map.2 ⟨_, he, by rw [← h]⟩) hd.1
    · exact absurd (List.mem_map.2 ⟨_, h, by rw [← he]⟩) hd.1
    · exact ih hd.2 h he

/-- Indices of any kind that answer exactly: a row on which nothing that is negated is NULL passes the plan exactly if
the filter is true on it, provided that the index query can be evaluated and combines masks of the same kind. -/
theorem C39_filter_partial (I : Info V) (X : Indices V) (T : Table V) (hX : IndexOK X T) (hd : (T.map (·.1)).Nodup)
    (useIndex : Bool) (e : Expr V) (hl : e.LitOK) (i : Nat) (env : Env V) (hi : i < 2 ^ 64) (hT : (i, env) ∈ T)
    (hI : InfoOK I env) (hn : e.NegOK I.ofBool env)
    (hq : ∀ q, (filterPlan I useIndex e).query = some q → Reliable q ∧ evaluate X q ≠ none) :
    Passes I.ofBool X (filterPlan I useIndex e) i env ↔ e.eval I.ofBool env = some true := by
  unfold filterPlan at hq ⊢
  cases useIndex with
  | false => simp [Passes]
  | true =>
    simp only [if_true] at hq ⊢
    unfold applyIndices at hq ⊢
    cases hv : visit I e with
    | none => simp [Passes]
    | some p =>
      rw [hv] at hq
      simp only at hq ⊢
      obtain ⟨q, h1, hm, h2⟩ := (visit_says hI e hl hn hv).query
      obtain ⟨hrel, hev⟩ := hq q h1
      obtain ⟨s, hs⟩ := Option.ne_none_iff_exists'.1 hrel
      obtain ⟨m, hm'⟩ := Option.ne_none_iff_exists'.1 hev
      have h3 := (evaluate_spec hX hT (table_unique hd hT) hi q hm hs hm').2
      rw [← h2, ← h3]
      unfold Passes
      rw [h1]
      constructor
      · rintro ⟨h4, h5⟩
        obtain ⟨m', h6, h7⟩ := h4 q rfl
        rw [hm'] at h6; cases h6
        exact ⟨h7, h5⟩
      · rintro ⟨h4, h5⟩
        refine ⟨?_, h5⟩
        intro q' hq'
        cases hq'
        exact ⟨m, hm', h4⟩

theorem negOK_of_negFree (ofBool : Bool → V) (env : Env V) (e : Expr V) (h : e.NegFree) : e.NegOK ofBool env := by
  induction e with
  | cmp op l r => cases op <;> first | trivial | exact absurd rfl h
  | between t lo hi neg => cases h; trivial
  | inList t ws neg => cases h; trivial
  | not e => cases h
  | and l r ihl ihr => exact ⟨ihl h.1, ihr h.2⟩
  | or l r ihl ihr => exact ⟨ihl h.1, ihr h.2⟩
  | isTrue e ih => exact ih h
  | isFalse e ih => exact ih h
  | _ => trivial

theorem visitBool_shape {I : Info V} {b : Bool} {e : Expr V} {p : IxPlan V} (h : visitBool I b e = some p)
    {q : IxExpr V} (hq : p.query = some q) : shape q = some (true, false) := by
  unfold visitBool at h
  split at h
  · split at h
    · cases h; cases hq; rfl
    · cases h
  · cases h

theorem visit_shape {I : Info V} (e : Expr V) (he : e.NegFree) {p : IxPlan V} (h : visit I e = some p) {q : IxExpr V}
    (hq : p.query = some q) : shape q = some (true, false) := by
  have hbet : ∀ {t lo hi : Tm V} {p : IxPlan V} {q : IxExpr V}, visitBetween I t lo hi false = some p →
      p.query = some q → shape q = some (true, false) := by
    intro t lo hi p q h hq
    unfold visitBetween at h
    split at h
    · cases h
    · split at h
      · simp only [negIf] at h; cases h; cases hq; rfl
      · cases h
  induction e generalizing p q with
  | boolCol c => exact visitBool_shape h hq
  | cmp op l r =>
    simp only [visit, visitCmp] at h
    split at h
    · cases h
    · split at h
      · cases h
      · have : (decide (op = .ne)) = false := decide_eq_false he
        rw [this] at h
        simp only [negIf] at h; cases h; cases hq; rfl
  | between t lo hi neg => cases he; exact hbet h hq
  | inList t ws neg =>
    cases he
    simp only [visit, visitInList] at h
    split at h
    · cases h
    · split at h
      · simp only [negIf] at h; cases h; cases hq; rfl
      · cases h
  | isNull t =>
    simp only [visit, visitIsNull] at h
    split at h
    · cases h
    · simp only [negIf] at h; cases h; cases hq; rfl
  | isNotNull t => cases he
  | isTrue e ih => exact visitBool_shape h hq
  | isFalse e ih => exact visitBool_shape h hq
  | not e ih => cases he
  | and l r ihl ihr =>
    simp only [visit] at h
    split at h
    · exact hbet h hq
    · split at h
      · rename_i a b h1 h2
        cases h
        simp only [IxPlan.and] at hq
        cases ha : a.query with
        | none =>
          cases hb : b.query with
          | none => rw [ha, hb] at hq; cases hq
          | some y => rw [ha, hb] at hq; cases hq; exact ihr he.2 h2 hb
        | some x =>
          cases hb : b.query with
          | none => rw [ha, hb] at hq; cases hq; exact ihl he.1 h1 ha
          | some y =>
            rw [ha, hb] at hq; cases hq
            simp only [shape, ihl he.1 h1 ha, ihr he.2 h2 hb]; rfl
      · rename_i a h1 h2
        cases h
        refine ihl he.1 h1 (p := a) ?_
        unfold IxPlan.refineWith at hq
        split at hq <;> exact hq
      · rename_i b h1 h2
        cases h
        refine ihr he.2 h2 (p := b) ?_
        unfold IxPlan.refineWith at hq
        split at hq <;> exact hq
      · cases h
  | or l r ihl ihr =>
    simp only [visit] at h
    split at h
    · rename_i a b h1 h2
      unfold IxPlan.maybeOr at h
      split at h
      · rename_i x y ha hb
        split at h
        · cases h; cases hq
          simp only [shape, ihl he.1 h1 ha, ihr he.2 h2 hb]
        · cases h
      · cases h
    · cases h
  | hasAll c ls =>
    simp only [visit] at h
    split at h
    · cases h; cases hq; rfl
    · cases h
  | hasAny c ls =>
    simp only [visit] at h
    split at h
    · cases h; cases hq; rfl
    · cases h
  | other k => cases h

/-- A filter that negates nothing and has no NULL literal: every row, with NULLs or not, passes the plan exactly if the
filter is true on it. -/
theorem C39_positive_partial (I : Info V) (X : Indices V) (T : Table V) (hX : IndexOK X T) (hd : (T.map (·.1)).Nodup)
    (useIndex : Bool) (e : Expr V) (hl : e.LitOK) (hn : e.NegFree) (i : Nat) (env : Env V) (hi : i < 2 ^ 64)
    (hT : (i, env) ∈ T) (hI : InfoOK I env)
    (hq : ∀ q, (filterPlan I useIndex e).query = some q → evaluate X q ≠ none) :
    Passes I.ofBool X (filterPlan I useIndex e) i env ↔ e.eval I.ofBool env = some true := by
  apply C39_filter_partial I X T hX hd useIndex e hl i env hi hT hI (negOK_of_negFree _ _ _ hn)
  intro q h
  refine ⟨?_, hq q h⟩
  have : shape q = some (true, false) := by
    unfold filterPlan at h
    cases useIndex with
    | false => simp at h
    | true =>
      simp only [if_true] at h
      unfold applyIndices at h
      split at h
      · rename_i p hv; exact visit_shape e hn hv h
      · simp at h
  unfold Reliable
  rw [this]; simp

/-- Nothing is NULL in the row. -/
structure Env.Full (env : Env V) : Prop where
  val : ∀ c, env.val c ≠ none
  list : ∀ c, env.list c ≠ none
  other : ∀ k, env.other k ≠ none
  cond : ∀ k, env.cond k ≠ none

omit [LinOrd V] [DecidableEq V] in
theorem tm_full {env : Env V} (h : env.Full) (t : Tm V) (ht : t.NotNull) : t.eval env ≠ none := by
  cases t with
  | col c => exact h.val c
  | lit w => exact ht
  | other k => exact h.other k

theorem cmp3_full (op : Cmp) {a b : Option V} (ha : a ≠ none) (hb : b ≠ none) : cmp3 op a b ≠ none := by
  cases a <;> cases b <;> simp_all [cmp3]

theorem and3_full {a b : Option Bool} (ha : a ≠ none) (hb : b ≠ none) : and3 a b ≠ none := by
  rcases a with _ | _ | _ <;> rcases b with _ | _ | _ <;> simp_all [and3]

theorem or3_full {a b : Option Bool} (ha : a ≠ none) (hb : b ≠ none) : or3 a b ≠ none := by
  rcases a with _ | _ | _ <;> rcases b with _ | _ | _ <;> simp_all [or3]

theorem not3_full {a : Option Bool} (ha : a ≠ none) : not3 a ≠ none := by
  rcases a with _ | _ | _ <;> simp_all [not3]

theorem in3_full {v : Option V} (hv : v ≠ none) (ws : List (Option V)) (hw : ∀ w ∈ ws, w ≠ none) : in3 v ws ≠ none := by
  induction ws with
  | nil => simp [in3]
  | cons w ws ih =>
    exact or3_full (cmp3_full _ hv (hw w (List.mem_cons_self ..))) (ih (fun x hx => hw x (List.mem_cons_of_mem _ hx)))

theorem eval_full (ofBool : Bool → V) {env : Env V} (h : env.Full) (e : Expr V) (hl : e.LitOK) :
    e.eval ofBool env ≠ none ∧ e.NegOK ofBool env := by
  have neg : ∀ b (x : Option Bool), x ≠ none → neg3 b x ≠ none := by
    intro b x hx
    cases b
    · exact hx
    · exact not3_full hx
  induction e with
  | boolCol c =>
    refine ⟨?_, trivial⟩
    have := h.val c
    cases hv : env.val c <;> simp_all [Expr.eval]
  | cmp op l r =>
    have h1 := tm_full h l hl.1
    have h2 := tm_full h r hl.2
    refine ⟨cmp3_full op h1 h2, ?_⟩
    cases op <;> first | trivial | exact ⟨h1, h2⟩
  | between t lo hi b =>
    have h1 := tm_full h t hl.1
    have h2 := tm_full h lo hl.2.1
    have h3 := tm_full h hi hl.2.2
    have h4 := and3_full (cmp3_full .ge h1 h2) (cmp3_full .le h1 h3)
    refine ⟨neg b _ h4, ?_⟩
    cases b
    · trivial
    · exact neg false _ h4
  | inList t ws b =>
    have h1 := tm_full h t hl.1
    have h4 := in3_full h1 (ws.map (Tm.eval env)) (by
      intro w hw
      obtain ⟨t', ht', rfl⟩ := List.mem_map.1 hw
      exact tm_full h t' (hl.2 t' ht'))
    refine ⟨neg b _ h4, ?_⟩
    cases b
    · trivial
    · exact neg false _ h4
  | isNull t => exact ⟨by simp [Expr.eval], trivial⟩
  | isNotNull t => exact ⟨by simp [Expr.eval], trivial⟩
  | isTrue e ih => exact ⟨by simp [Expr.eval], (ih hl).2⟩
  | isFalse e ih => exact ⟨by simp [Expr.eval], (ih hl).2⟩
  | not e ih => exact ⟨not3_full (ih hl).1, ih hl⟩
  | and l r ihl ihr => exact ⟨and3_full (ihl hl.1).1 (ihr hl.2).1, (ihl hl.1).2, (ihr hl.2).2⟩
  | or l r ihl ihr => exact ⟨or3_full (ihl hl.1).1 (ihr hl.2).1, (ihl hl.1).2, (ihr hl.2).2⟩
  | hasAll c ls =>
    refine ⟨?_, trivial⟩
    have := h.list c
    cases hv : env.list c <;> simp_all [Expr.eval]
  | hasAny c ls =>
    refine ⟨?_, trivial⟩
    have := h.list c
    cases hv : env.list c <;> simp_all [Expr.eval]
  | other k => exact ⟨h.cond k, trivial⟩

/-- Rows without NULLs: any filter without NULL literals, negations included, if the masks are combined reliably. -/
theorem C39_no_nulls_partial (I : Info V) (X : Indices V) (T : Table V) (hX : IndexOK X T) (hd : (T.map (·.1)).Nodup)
    (useIndex : Bool) (e : Expr V) (hl : e.LitOK) (i : Nat) (env : Env V) (hi : i < 2 ^ 64) (hT : (i, env) ∈ T)
    (hI : InfoOK I env) (hf : env.Full)
    (hq : ∀ q, (filterPlan I useIndex e).query = some q → Reliable q ∧ evaluate X q ≠ none) :
    Passes I.ofBool X (filterPlan I useIndex e) i env ↔ e.eval I.ofBool env = some true :=
  C39_filter_partial I X T hX hd useIndex e hl i env hi hT hI (eval_full I.ofBool hf e hl).2 hq

/-- Without indices the filter is evaluated as it is. -/
theorem C39_no_index (I : Info V) (X : Indices V) (e : Expr V) (i : Nat) (env : Env V) :
    Passes I.ofBool X (filterPlan I false e) i env ↔ e.eval I.ofBool env = some true := by
  simp [Passes, filterPlan]

/-- All ranges of the index query are in order and all label lists have a label. -/
def Orderly : IxExpr V → Prop
  | .not e => Orderly e
  | .and l r => Orderly l ∧ Orderly r
  | .or l r => Orderly l ∧ Orderly r
  | .query _ q => ∃ q', q.toScalar = some q' ∧ ¬ Scalar.Crossed q' ∧ ¬ Scalar.Pinched q'
  | .labels _ q => Scalar.labelsOf q ≠ []

theorem evaluate_orderly (shuffle : List (Option V × TreeMap) → List (Option V × TreeMap))
    (hs : ∀ l, (shuffle l).Perm l) (nul : SQuery V → Option TreeMap) (T : Table V) (hT : ∀ r ∈ T, r.1 < 2 ^ 64)
    (hd : (T.map (·.1)).Nodup) (q : IxExpr V) (hq : Orderly q) :
    evaluate (bitmapIndices shuffle nul T) q ≠ none := by
  induction q with
  | not e ih =>
    obtain ⟨m, hm⟩ := Option.ne_none_iff_exists'.1 (ih hq)
    simp [evaluate, hm]
  | and l r ihl ihr =>
    obtain ⟨m, hm⟩ := Option.ne_none_iff_exists'.1 (ihl hq.1)
    obtain ⟨m', hm'⟩ := Option.ne_none_iff_exists'.1 (ihr hq.2)
    simp [evaluate, hm, hm']
  | or l r ihl ihr =>
    obtain ⟨m, hm⟩ := Option.ne_none_iff_exists'.1 (ihl hq.1)
    obtain ⟨m', hm'⟩ := Option.ne_none_iff_exists'.1 (ihr hq.2)
    simp [evaluate, hm, hm']
  | query c q =>
    obtain ⟨q', h1, h2, h3⟩ := hq
    obtain ⟨m, hm, _⟩ := Scalar.bitmap_exact (bExact_train shuffle hs _ (ids_colRows hT c)) q' ⟨h2, h3⟩
    simp [evaluate, bitmapIndices, h1, hm]
  | labels c q =>
    have hr : ∀ r ∈ listRows T c, r.2 < 2 ^ 64 := by
      intro r hr
      obtain ⟨x, hx, rfl⟩ := List.mem_map.1 hr
      exact hT x hx
    have hd' : ((listRows T c).map (·.2)).Nodup := by
      have : (listRows T c).map (·.2) = T.map (·.1) := by simp [listRows, List.map_map, Function.comp_def]
      rw [this]; exact hd
    obtain ⟨m, hm, _⟩ := Scalar.labels_exact (bExact_train shuffle hs _ (Scalar.ids_unnest _ hr)) hd' q hq
    simp [evaluate, bitmapIndices, hm]

/-- End to end with bitmap and label list indices built from the table. -/
theorem C39_bitmap_partial (I : Info V) (shuffle : List (Option V × TreeMap) → List (Option V × TreeMap))
    (hs : ∀ l, (shuffle l).Perm l) (nul : SQuery V → Option TreeMap) (T : Table V) (hT : ∀ r ∈ T, r.1 < 2 ^ 64)
    (hd : (T.map (·.1)).Nodup) (e : Expr V) (hl : e.LitOK) (hn : e.NegFree) (hI : ∀ r ∈ T, InfoOK I r.2)
    (hq : ∀ q, (filterPlan I true e).query = some q → Orderly q) (i : Nat) (env : Env V) (hi : (i, env) ∈ T) :
    Passes I.ofBool (bitmapIndices shuffle nul T) (filterPlan I true e) i env ↔ e.eval I.ofBool env = some true :=
  C39_positive_partial I _ T (indexOK_bitmaps shuffle hs nul T hT hd) hd true e hl hn i env (hT _ hi) hi (hI _ hi)
    (fun q h => evaluate_orderly shuffle hs nul T hT hd q (hq q h))

end

/-! ### Cases that meet the hypotheses -/

/-- `(x >= 2 AND x <= 6) AND (y = 3 OR y IS NULL) AND other`. -/
def exFilter : Expr Nat :=
  .and (.and (.cmp .ge (.col 0) (.lit (some 2))) (.cmp .le (.col 0) (.lit (some 6))))
    (.and (.or (.cmp .eq (.col 1) (.lit (some 3))) (.isNull (.col 1))) (.other 0))

example : exFilter.LitOK ∧ exFilter.NegFree := by simp [exFilter, Expr.LitOK, Expr.NegFree, Tm.NotNull]
example : (filterPlan exInfo true exFilter).query.isSome = true := rfl
example : (filterPlan exInfo true exFilter).refine.isSome = true := rfl

def exTable : Table Nat :=
  [(0, exRow (some 4) (some 3)), (1, exRow (some 4) none), (2, exRow none (some 3)), (3, exRow (some 9) none),
   (4, { exRow (some 5) none with cond := fun _ => some true })]

example : exTable.map (fun r => passes exInfo.ofBool (exIndices exTable) (filterPlan exInfo true exFilter) r.1 r.2) =
    [false, false, false, false, true] := by decide +kernel

/-- A negated filter with reliable masks: `x != 4 AND y = 3`. -/
example : ((filterPlan exInfo true (.and (.cmp .ne (.col 0) (.lit (some 4))) (.cmp .eq (.col 1) (.lit (some 3))))).query.map
    (fun q => (shape q).isSome)) = some true := by decide +kernel
example : (Expr.cmp .ne (.col 0) (.lit (some 4))).NegOK exInfo.ofBool (exRow (some 4) (some 3)) := by
  exact ⟨by decide, by decide⟩

end Verif.Expr
