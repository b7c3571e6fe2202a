import Verif.Iscan.LemmasPlan

/-!
# C92: a filtered scan returns the rows on which the filter is true, with or without indices
-/
namespace Verif.Iscan
open Verif
open Verif.RowSet (TreeMap Mask contains selected newFromParts fragmentId rowOffset)
open Verif.Expr
open Verif.Scalar (LinOrd LQuery)
open Verif.Prefilter (Arrival FragOK)
open Verif.RowIds (Seg)

/-- A scan's answer: each row of the requested fragments that is not deleted and on which the filter is true, under its
`_rowid`, each once, and nothing else. -/
def Answers {V : Type} [LinOrd V] [DecidableEq V] (ofBool : Bool → V) (stable : Bool) (req : List (Frag V)) (e : Expr V)
    (out : List (Nat × Env V)) : Prop :=
  (out.map (·.1)).Nodup ∧ ∀ v env, (v, env) ∈ out ↔ ∃ f ∈ req, ∃ o, f.rows[o]? = some env ∧
    (∀ d, f.dv = some d → d.contains o = false) ∧ f.key stable o = v ∧ e.eval ofBool env = some true

/-- The setting: a readable dataset, chosen fragments, an index on every column built over the fragments it covers,
literals that are not NULL, literals and booleans of the columns' types, ranges that are in order, and deletion vectors
and row id sequences that arrive in some order. -/
structure Meets (I : Info Nat) (useIndex stable : Bool) (ds : List (Frag Nat)) (chosen : Option (List (Frag Nat)))
    (cover : Nat → List Nat) (T : Nat → Table Nat) (s : Sched Nat) (e : Expr Nat) : Prop where
  readable : DsOK stable ds
  choice : ChosenOK ds chosen
  built : ∀ c, BuiltOver stable ds (cover c) (T c)
  lits : e.LitOK
  info : ∀ f ∈ chosen.getD ds, ∀ r ∈ f.live stable, InfoOK I r.2
  query : ∀ q, (filterPlan I useIndex e).query = some q → Orderly q ∧ SchedOK stable ds (chosen.getD ds) cover s q

/-- C92: a scan with a filter completes, and its answer is that of the filter, whatever fragments the indices cover,
whatever rows have been deleted since they were built, and whatever fragments are chosen. -/
def C92_statement : Prop :=
  ∀ (I : Info Nat) (useIndex stable : Bool) (ds : List (Frag Nat)) (chosen : Option (List (Frag Nat)))
    (cover : Nat → List Nat) (T : Nat → Table Nat) (s : Sched Nat) (e : Expr Nat),
    Meets I useIndex stable ds chosen cover T s e →
    ∃ out, filteredScan I useIndex stable ds chosen cover (columnIndices id T) s e = some out ∧
      Answers I.ofBool stable (chosen.getD ds) e out

/-! ### What holds -/

section
variable {V : Type} [LinOrd V] [DecidableEq V]

theorem answers_of_perm {ofBool : Bool → V} {stable : Bool} {req : List (Frag V)} (h : DsOK stable req) {e : Expr V}
    {out : List (Nat × Env V)}
    (hp : out.Perm ((req.flatMap (Frag.live stable)).filter (fun r => e.eval ofBool r.2 == some true))) :
    Answers ofBool stable req e out := by
  refine ⟨?_, ?_⟩
  · rw [(hp.map (·.1)).nodup_iff]
    exact (List.filter_sublist.map Prod.fst).nodup (nodup_live h)
  · intro v env
    rw [hp.mem_iff, List.mem_filter, mem_flatMap_live, beq_iff_eq]
    constructor
    · rintro ⟨⟨f, hf, o, h1, h2, h3⟩, h4⟩
      exact ⟨f, hf, o, h1, deleted_false.mp h2, h3, h4⟩
    · rintro ⟨f, hf, o, h1, h2, h3, h4⟩
      exact ⟨⟨f, hf, o, h1, deleted_false.mpr h2, h3⟩, h4⟩

/-- C92: if a scan completes its answer is that of the filter, provided that the indices answer exactly for the live
rows of the fragments they cover, that nothing that is negated is NULL on a row, that no `IS TRUE` below a `NOT` meets
a NULL, and that the index query combines masks of the same kind. -/
theorem C92_rows_partial (I : Info V) (useIndex stable : Bool) (ds : List (Frag V)) (chosen : Option (List (Frag V)))
    (cover : Nat → List Nat) (X : Indices V) (s : Sched V) (e : Expr V) (h : DsOK stable ds) (hc : ChosenOK ds chosen)
    (hX : IndicesOK stable ds cover X) (hl : e.LitOK)
    (hrow : ∀ f ∈ chosen.getD ds, ∀ r ∈ f.live stable, InfoOK I r.2 ∧ e.NegOK I.ofBool r.2 ∧ Strict I.ofBool r.2 e)
    (hq : ∀ q, (filterPlan I useIndex e).query = some q → Reliable q ∧ SchedOK stable ds (chosen.getD ds) cover s q)
    (out : List (Nat × Env V)) (ho : filteredScan I useIndex stable ds chosen cover X s e = some out) :
    Answers I.ofBool stable (chosen.getD ds) e out := by
  obtain ⟨hf, hd⟩ := hc.req h.ids
  exact answers_of_perm (h.sub hf hd) ((filteredScan_perm I useIndex stable ds chosen cover X s e h hc hX hl hrow hq).1 out ho)

/-- C92: without stable row ids a scan completes if the index query can be evaluated. -/
theorem C92_addresses_partial (I : Info V) (useIndex : Bool) (ds : List (Frag V)) (chosen : Option (List (Frag V)))
    (cover : Nat → List Nat) (X : Indices V) (s : Sched V) (e : Expr V) (h : DsOK false ds) (hc : ChosenOK ds chosen)
    (hX : IndicesOK false ds cover X) (hl : e.LitOK)
    (hrow : ∀ f ∈ chosen.getD ds, ∀ r ∈ f.live false, InfoOK I r.2 ∧ e.NegOK I.ofBool r.2 ∧ Strict I.ofBool r.2 e)
    (hq : ∀ q, (filterPlan I useIndex e).query = some q → Reliable q ∧ SchedOK false ds (chosen.getD ds) cover s q ∧
      evaluate X q ≠ none) :
    ∃ out, filteredScan I useIndex false ds chosen cover X s e = some out ∧
      Answers I.ofBool false (chosen.getD ds) e out := by
  have hq' : ∀ q, (filterPlan I useIndex e).query = some q → Reliable q ∧ SchedOK false ds (chosen.getD ds) cover s q :=
    fun q h => ⟨(hq q h).1, (hq q h).2.1⟩
  have := (filteredScan_perm I useIndex false ds chosen cover X s e h hc hX hl hrow hq').2 (fun q hqq => by
    obtain ⟨m, hm⟩ := Option.ne_none_iff_exists'.1 (hq q hqq).2.2
    exact ⟨m, hm, Or.inl rfl⟩)
  obtain ⟨out, ho⟩ := Option.ne_none_iff_exists'.1 this
  exact ⟨out, ho, C92_rows_partial I useIndex false ds chosen cover X s e h hc hX hl hrow hq' out ho⟩

theorem negFree_plan {I : Info V} {useIndex : Bool} {e : Expr V} (hn : e.NegFree) {q : IxExpr V}
    (h : (filterPlan I useIndex e).query = some q) : shape q = some (true, false) := by
  unfold filterPlan at h
  cases useIndex with
  | false => cases h
  | true =>
    simp only [if_true] at h
    unfold applyIndices at h
    cases hv : visit I e with
    | none => rw [hv] at h; cases h
    | some p =>
      rw [hv] at h
      exact visit_shape e hn hv h

/-- A query of which nothing is negated gives an allow list. -/
theorem evaluate_allows {X : Indices V} (q : IxExpr V) (hs : shape q = some (true, false)) {m : Mask}
    (hm : evaluate X q = some m) : m.allow ≠ none := by
  have key : ∀ (q : IxExpr V) (s : Bool × Bool) (m : Mask), shape q = some s → evaluate X q = some m →
      m.allow.isSome = s.1 ∧ m.block.isSome = s.2 := by
    intro q
    induction q with
    | query c x =>
      intro s m h1 h2
      cases h1
      simp only [evaluate, Option.map_eq_some_iff] at h2
      obtain ⟨t, _, rfl⟩ := h2
      exact ⟨rfl, rfl⟩
    | labels c x =>
      intro s m h1 h2
      cases h1
      simp only [evaluate, Option.map_eq_some_iff] at h2
      obtain ⟨t, _, rfl⟩ := h2
      exact ⟨rfl, rfl⟩
    | not e ih =>
      intro s m h1 h2
      simp only [evaluate, Option.map_eq_some_iff] at h2
      obtain ⟨t, ht, rfl⟩ := h2
      simp only [shape] at h1
      split at h1
      · rename_i hse
        cases h1
        exact ⟨(ih _ _ hse ht).2, (ih _ _ hse ht).1⟩
      · rename_i hse
        cases h1
        exact ⟨(ih _ _ hse ht).2, (ih _ _ hse ht).1⟩
      · cases h1
    | and l r ihl ihr =>
      intro s m h1 h2
      simp only [evaluate] at h2
      simp only [shape] at h1
      split at h1
      · rename_i a b c d hsl hsr
        cases h1
        cases hl : evaluate X l with
        | none => rw [hl] at h2; cases h2
        | some x =>
          cases hr : evaluate X r with
          | none => rw [hl, hr] at h2; cases h2
          | some y =>
            rw [hl, hr] at h2
            cases h2
            obtain ⟨k1, k2⟩ := ihl _ _ hsl hl
            obtain ⟨k3, k4⟩ := ihr _ _ hsr hr
            obtain ⟨xa, xb⟩ := x
            obtain ⟨ya, yb⟩ := y
            simp only at k1 k2 k3 k4
            subst k1 k2 k3 k4
            refine ⟨?_, ?_⟩
            · cases xa <;> cases ya <;> rfl
            · cases xb <;> cases yb <;> rfl
      · cases h1
    | or l r ihl ihr =>
      intro s m h1 h2
      simp only [evaluate] at h2
      simp only [shape] at h1
      cases hl : evaluate X l with
      | none => rw [hl] at h2; cases h2
      | some x =>
        cases hr : evaluate X r with
        | none => rw [hl, hr] at h2; cases h2
        | some y =>
          rw [hl, hr] at h2
          cases h2
          obtain ⟨xa, xb⟩ := x
          obtain ⟨ya, yb⟩ := y
          split at h1
          · rename_i hsl hsr
            cases h1
            obtain ⟨k1, k2⟩ := ihl _ _ hsl hl
            obtain ⟨k3, k4⟩ := ihr _ _ hsr hr
            cases xa <;> cases xb <;> cases ya <;> cases yb <;> first | (cases k1; done) | (cases k2; done) | (cases k3; done) | (cases k4; done) | exact ⟨rfl, rfl⟩
          · rename_i hsl hsr
            cases h1
            obtain ⟨k1, k2⟩ := ihl _ _ hsl hl
            obtain ⟨k3, k4⟩ := ihr _ _ hsr hr
            cases xa <;> cases xb <;> cases ya <;> cases yb <;> first | (cases k1; done) | (cases k2; done) | (cases k3; done) | (cases k4; done) | exact ⟨rfl, rfl⟩
          · cases h1
  have := (key q _ m hs hm).1
  intro hc
  rw [hc] at this
  cases this

/-- C92: a filter of which nothing is negated: the scan completes, with addresses and with stable row ids, and its
answer is that of the filter, NULLs or not, whatever fragments are chosen. -/
theorem C92_positive_partial (I : Info V) (useIndex stable : Bool) (ds : List (Frag V)) (chosen : Option (List (Frag V)))
    (cover : Nat → List Nat) (X : Indices V) (s : Sched V) (e : Expr V) (h : DsOK stable ds) (hc : ChosenOK ds chosen)
    (hX : IndicesOK stable ds cover X) (hl : e.LitOK) (hn : e.NegFree)
    (hrow : ∀ f ∈ chosen.getD ds, ∀ r ∈ f.live stable, InfoOK I r.2)
    (hq : ∀ q, (filterPlan I useIndex e).query = some q → SchedOK stable ds (chosen.getD ds) cover s q ∧
      evaluate X q ≠ none) :
    ∃ out, filteredScan I useIndex stable ds chosen cover X s e = some out ∧
      Answers I.ofBool stable (chosen.getD ds) e out := by
  have hq' : ∀ q, (filterPlan I useIndex e).query = some q → Reliable q ∧ SchedOK stable ds (chosen.getD ds) cover s q :=
    fun q hqq => ⟨by unfold Reliable; rw [negFree_plan hn hqq]; simp, (hq q hqq).1⟩
  have hrow' : ∀ f ∈ chosen.getD ds, ∀ r ∈ f.live stable, InfoOK I r.2 ∧ e.NegOK I.ofBool r.2 ∧ Strict I.ofBool r.2 e :=
    fun f hf r hr => ⟨hrow f hf r hr, negOK_of_negFree _ _ _ hn, strict_of_negFree _ _ _ hn⟩
  have := (filteredScan_perm I useIndex stable ds chosen cover X s e h hc hX hl hrow' hq').2 (fun q hqq => by
    obtain ⟨m, hm⟩ := Option.ne_none_iff_exists'.1 (hq q hqq).2
    exact ⟨m, hm, Or.inr (Or.inl (evaluate_allows q (negFree_plan hn hqq) hm))⟩)
  obtain ⟨out, ho⟩ := Option.ne_none_iff_exists'.1 this
  exact ⟨out, ho, C92_rows_partial I useIndex stable ds chosen cover X s e h hc hX hl hrow' hq' out ho⟩

/-- C92: with bitmap and label list indices built over the fragments they cover (rows may have been deleted and
fragments dropped or added since), filters without negations whose ranges are in order are answered rightly. -/
theorem C92_bitmap_positive_partial (I : Info V) (useIndex stable : Bool) (ds : List (Frag V))
    (chosen : Option (List (Frag V))) (cover : Nat → List Nat)
    (shuffle : List (Option V × TreeMap) → List (Option V × TreeMap)) (hs : ∀ l, (shuffle l).Perm l)
    (T : Nat → Table V) (hT : ∀ c, BuiltOver stable ds (cover c) (T c)) (s : Sched V) (e : Expr V) (h : DsOK stable ds)
    (hc : ChosenOK ds chosen) (hl : e.LitOK) (hn : e.NegFree)
    (hrow : ∀ f ∈ chosen.getD ds, ∀ r ∈ f.live stable, InfoOK I r.2)
    (hq : ∀ q, (filterPlan I useIndex e).query = some q → Orderly q ∧ SchedOK stable ds (chosen.getD ds) cover s q) :
    ∃ out, filteredScan I useIndex stable ds chosen cover (columnIndices shuffle T) s e = some out ∧
      Answers I.ofBool stable (chosen.getD ds) e out :=
  C92_positive_partial I useIndex stable ds chosen cover _ s e h hc
    (indicesOK_columns stable ds cover shuffle hs T hT) hl hn hrow
    (fun q hqq => ⟨(hq q hqq).2, evaluate_columns stable ds cover shuffle hs T hT q (hq q hqq).1⟩)

/-- C92: rows without NULLs: any filter whose index query combines masks of the same kind is answered rightly if the
scan completes. -/
theorem C92_no_nulls_partial (I : Info V) (useIndex stable : Bool) (ds : List (Frag V)) (chosen : Option (List (Frag V)))
    (cover : Nat → List Nat) (X : Indices V) (s : Sched V) (e : Expr V) (h : DsOK stable ds) (hc : ChosenOK ds chosen)
    (hX : IndicesOK stable ds cover X) (hl : e.LitOK)
    (hrow : ∀ f ∈ chosen.getD ds, ∀ r ∈ f.live stable, InfoOK I r.2 ∧ r.2.Full)
    (hq : ∀ q, (filterPlan I useIndex e).query = some q → Reliable q ∧ SchedOK stable ds (chosen.getD ds) cover s q)
    (out : List (Nat × Env V)) (ho : filteredScan I useIndex stable ds chosen cover X s e = some out) :
    Answers I.ofBool stable (chosen.getD ds) e out :=
  C92_rows_partial I useIndex stable ds chosen cover X s e h hc hX hl
    (fun f hf r hr => ⟨(hrow f hf r hr).1, (eval_full _ (hrow f hf r hr).2 e hl).2, strict_of_full _ (hrow f hf r hr).2 e hl⟩)
    hq out ho

/-- C92, stable row ids: a scan completes if the rows that the query blocks are rows of the scanned fragments (always so
if all fragments are scanned and no indexed row is gone). -/
theorem C92_row_ids_partial (I : Info V) (useIndex : Bool) (ds : List (Frag V)) (chosen : Option (List (Frag V)))
    (cover : Nat → List Nat) (X : Indices V) (s : Sched V) (e : Expr V) (h : DsOK true ds) (hc : ChosenOK ds chosen)
    (hX : IndicesOK true ds cover X) (hl : e.LitOK)
    (hrow : ∀ f ∈ chosen.getD ds, ∀ r ∈ f.live true, InfoOK I r.2 ∧ e.NegOK I.ofBool r.2 ∧ Strict I.ofBool r.2 e)
    (hq : ∀ q, (filterPlan I useIndex e).query = some q → Reliable q ∧ SchedOK true ds (chosen.getD ds) cover s q ∧
      ∃ m, evaluate X q = some m ∧ ∀ b, m.block = some b → ∀ v, v < 2 ^ 64 → contains b v = true →
        ∃ f ∈ chosen.getD ds, f.id ∈ covered cover q ∧ v ∈ RowIds.Seq.iter f.seq) :
    ∃ out, filteredScan I useIndex true ds chosen cover X s e = some out ∧
      Answers I.ofBool true (chosen.getD ds) e out := by
  obtain ⟨hf, hd⟩ := hc.req h.ids
  have hq' : ∀ q, (filterPlan I useIndex e).query = some q → Reliable q ∧ SchedOK true ds (chosen.getD ds) cover s q :=
    fun q h => ⟨(hq q h).1, (hq q h).2.1⟩
  have := (filteredScan_perm I useIndex true ds chosen cover X s e h hc hX hl hrow hq').2 (fun q hqq => by
    obtain ⟨m, hm, hb⟩ := (hq q hqq).2.2
    refine ⟨m, hm, Or.inr (Or.inr (Or.inr ?_))⟩
    intro b hbl v hv hcon
    obtain ⟨f, hfm, hcov, hin⟩ := hb b hbl v hv hcon
    refine List.mem_flatMap.mpr ⟨f, List.mem_filter.mpr ⟨hfm, by simpa using hcov⟩, ?_⟩
    rw [keys_stable (h.frag rfl f (hf f hfm)).2.2]
    exact hin)
  obtain ⟨out, ho⟩ := Option.ne_none_iff_exists'.1 this
  exact ⟨out, ho, C92_rows_partial I useIndex true ds chosen cover X s e h hc hX hl hrow hq' out ho⟩

/-- C92: without scalar indices, or if a fragment does not record its number of rows, the filter is evaluated on every
row; nothing is assumed of the filter, the rows or the indices. -/
theorem C92_no_index (I : Info V) (useIndex stable : Bool) (ds : List (Frag V)) (chosen : Option (List (Frag V)))
    (cover : Nat → List Nat) (X : Indices V) (s : Sched V) (e : Expr V) (h : DsOK stable ds) (hc : ChosenOK ds chosen)
    (hu : useIndex = false ∨ ∃ f ∈ chosen.getD ds, f.counted = false) :
    ∃ out, filteredScan I useIndex stable ds chosen cover X s e = some out ∧
      Answers I.ofBool stable (chosen.getD ds) e out := by
  obtain ⟨hf, hd⟩ := hc.req h.ids
  refine ⟨_, filteredScan_plain useIndex ?_, answers_of_perm (h.sub hf hd) (List.Perm.refl _)⟩
  rcases hu with hu | ⟨f, hfm, hcn⟩
  · exact Or.inr (Or.inr hu)
  · exact Or.inr (Or.inl (List.any_eq_true.mpr ⟨f, hfm, by rw [hcn]; rfl⟩))

/-- C92: a scan through the indices returns the same rows as one without, up to order. -/
theorem C92_same_rows_partial (I : Info V) (stable : Bool) (ds : List (Frag V)) (chosen : Option (List (Frag V)))
    (cover : Nat → List Nat) (X : Indices V) (s s' : Sched V) (e : Expr V) (h : DsOK stable ds) (hc : ChosenOK ds chosen)
    (hX : IndicesOK stable ds cover X) (hl : e.LitOK)
    (hrow : ∀ f ∈ chosen.getD ds, ∀ r ∈ f.live stable, InfoOK I r.2 ∧ e.NegOK I.ofBool r.2 ∧ Strict I.ofBool r.2 e)
    (hq : ∀ q, (filterPlan I true e).query = some q → Reliable q ∧ SchedOK stable ds (chosen.getD ds) cover s q)
    (a b : List (Nat × Env V)) (ha : filteredScan I true stable ds chosen cover X s e = some a)
    (hb : filteredScan I false stable ds chosen cover X s' e = some b) : a.Perm b := by
  rw [filteredScan_plain false (Or.inr (Or.inr rfl))] at hb
  cases hb
  exact (filteredScan_perm I true stable ds chosen cover X s e h hc hX hl hrow hq).1 a ha

end
end Verif.Iscan
