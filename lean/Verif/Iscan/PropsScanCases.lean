import Verif.Iscan.PropsScan

/-!
# C92: where the claim fails, and cases that meet the hypotheses of what holds
-/
namespace Verif.Iscan
open Verif
open Verif.RowSet (TreeMap Mask contains selected newFromParts fragmentId rowOffset)
open Verif.Expr
open Verif.Prefilter (Arrival FragOK)
open Verif.RowIds (Seg)

theorem fragOK_range (id a b : Nat) (dv : Option Deletion.DV) (hab : a < b) (hb : b ≤ 4294967295)
    (hdv : ∀ d, dv = some d → d.WF ∧ ∀ o, d.contains o = true → o < b - a) : FragOK ⟨id, dv, [.range a b]⟩ := by
  have hmem : ∀ sg ∈ [Seg.range a b], sg = .range a b := by intro sg h; simpa using h
  have hlen : (RowIds.Seq.iter [Seg.range a b]).length = b - a := by simp [RowIds.Seq.iter, Seg.iter]
  refine ⟨?_, ?_, ?_, List.pairwise_singleton _ _, ?_, ?_⟩
  · intro sg h
    rw [hmem sg h]
    refine ⟨⟨by simp only [Seg.WF]; omega, fun _ => ⟨_, _, rfl⟩⟩, ?_, ?_⟩
    · intro x hx; simp [Seg.iter, List.mem_range'_1] at hx; omega
    · intro x hx y hy; simp [Seg.iter, List.mem_range'_1] at hx hy; omega
  · intro sg h
    rw [hmem sg h]
    refine ⟨by simp only [Seg.WF]; omega, ?_, ?_⟩
    · intro s e he; cases he; omega
    · show b ≤ _; omega
  · intro sg h v hv
    rw [hmem sg h] at hv
    simp [Seg.iter, List.mem_range'_1] at hv
    omega
  · show (RowIds.Seq.iter [Seg.range a b]).length < _
    rw [hlen]; omega
  · intro d hd
    obtain ⟨h1, h2⟩ := hdv d hd
    refine ⟨h1, fun o ho => ?_⟩
    show o < (RowIds.Seq.iter [Seg.range a b]).length
    rw [hlen]
    exact h2 o ho

/-! ### NULLs -/

/-- A fragment that the index covers and one that was added later; both have a row where `x` is NULL. -/
def nullsDs : List (Frag Nat) :=
  [⟨0, [exRow none none, exRow (some 5) none], none, [], true⟩, ⟨1, [exRow none none, exRow (some 7) none], none, [], true⟩]

/-- The index was built when only the first fragment was there. -/
def firstRows (stable : Bool) (ds : List (Frag Nat)) : Nat → Table Nat := fun _ => (ds.take 1).flatMap (Frag.live stable)

/-- `x != 5`. -/
def notFive : Expr Nat := .cmp .ne (.col 0) (.lit (some 5))

theorem dsOK_addresses (ds : List (Frag Nat)) (h1 : (ds.map (·.id)).Nodup) (h2 : ∀ f ∈ ds, f.id < 2 ^ 32)
    (h3 : ∀ f ∈ ds, f.rows.length ≤ 2 ^ 32) : DsOK false ds :=
  ⟨h1, h2, h3, (fun h => nomatch h), (fun h => nomatch h), (fun h => nomatch h)⟩

theorem nullsDs_ok : DsOK false nullsDs := dsOK_addresses _ (by decide) (by decide) (by decide)

theorem mem_two {α : Type} {f a b : α} (h : f ∈ [a, b]) : f = a ∨ f = b := by simpa using h

theorem nullsDs_built : BuiltOver false nullsDs [0] (firstRows false nullsDs 0) := by
  refine ⟨by decide +kernel, by decide +kernel, ?_, fun _ => by decide +kernel⟩
  intro f hf hc r hr
  rcases mem_two hf with rfl | rfl
  · exact List.mem_flatMap.mpr ⟨_, List.mem_cons_self, hr⟩
  · exact absurd hc (by decide)

theorem notFive_query {I : Info Nat} (hI : I = exInfo) {u : Bool} {q : IxExpr Nat}
    (h : (filterPlan I u notFive).query = some q) : q = .not (.query 0 (.equals (some 5))) := by
  subst hI
  cases u with
  | false => cases h
  | true => exact (Option.some.inj h).symm

theorem nullsDs_meets (u : Bool) :
    Meets exInfo u false nullsDs none (fun _ => [0]) (firstRows false nullsDs) ⟨[], []⟩ notFive := by
  refine ⟨nullsDs_ok, fun l h => (nomatch h), fun _ => nullsDs_built, ⟨trivial, fun h => nomatch h⟩,
    fun _ _ r _ => exInfo_ok r.2, ?_⟩
  intro q hq
  rw [notFive_query rfl hq]
  refine ⟨⟨_, rfl, ?_, ?_⟩, fun h => (nomatch h), fun _ => ?_⟩
  · intro h; cases h
  · intro h; cases h
  · show List.Perm _ _
    decide +kernel

/-- `x != 5` returns the row of the covered fragment where `x` is NULL, but not the one of the other fragment; without
the index it returns neither. -/
theorem C92_null_rows_violated :
    Meets exInfo true false nullsDs none (fun _ => [0]) (firstRows false nullsDs) ⟨[], []⟩ notFive ∧
    (filteredScan exInfo true false nullsDs none (fun _ => [0]) (columnIndices id (firstRows false nullsDs)) ⟨[], []⟩
      notFive).map (fun out => out.map (fun r => (r.1, r.2.val 0))) =
      some [(newFromParts 0 0, none), (newFromParts 1 1, some 7)] ∧
    (filteredScan exInfo false false nullsDs none (fun _ => [0]) (columnIndices id (firstRows false nullsDs)) ⟨[], []⟩
      notFive).map (fun out => out.map (fun r => (r.1, r.2.val 0))) = some [(newFromParts 1 1, some 7)] :=
  ⟨nullsDs_meets true, by decide +kernel, by decide +kernel⟩

/-- The columns are boolean. -/
def boolInfo : Info Nat := ⟨fun _ => some true, fun _ => false, fun _ w => some w, fun b => if b then 1 else 0⟩

def boolDs : List (Frag Nat) :=
  [⟨0, [exRow none none, exRow (some 1) none], none, [], true⟩, ⟨1, [exRow none none, exRow (some 0) none], none, [], true⟩]

/-- `NOT (b IS TRUE)`. -/
def notIsTrue : Expr Nat := .not (.isTrue (.boolCol 0))

theorem boolDs_meets :
    Meets boolInfo true false boolDs none (fun _ => [0]) (firstRows false boolDs) ⟨[], []⟩ notIsTrue := by
  refine ⟨dsOK_addresses _ (by decide) (by decide) (by decide), fun l h => (nomatch h), fun c => ?_, trivial, ?_, ?_⟩
  · show BuiltOver false boolDs [0] (firstRows false boolDs 0)
    refine ⟨by decide +kernel, by decide +kernel, ?_, fun _ => by decide +kernel⟩
    intro f hf hc r hr
    rcases mem_two hf with rfl | rfl
    · exact List.mem_flatMap.mpr ⟨_, List.mem_cons_self, hr⟩
    · exact absurd hc (by decide)
  · intro f hf r hr
    refine ⟨fun _ _ _ h => (Option.some.inj h).symm, by decide, ?_⟩
    have key : r.2.val 0 ∈ [none, some 0, some 1] ∧ ∀ c, c ≠ 0 → r.2.val c = none := by
      obtain ⟨v, env⟩ := r
      obtain ⟨o, h1, _⟩ := mem_live.mp hr
      have hin := List.mem_of_getElem? h1
      rcases mem_two hf with rfl | rfl <;> rcases mem_two hin with rfl | rfl <;>
        exact ⟨by simp [exRow], fun c hc => by simp [exRow, hc]⟩
    intro c v _ hv
    by_cases hc : c = 0
    · subst hc
      have := key.1
      rw [hv] at this
      simp only [List.mem_cons, Option.some.injEq, List.not_mem_nil, or_false, reduceCtorEq, false_or] at this
      rcases this with rfl | rfl
      · exact ⟨false, rfl⟩
      · exact ⟨true, rfl⟩
    · rw [key.2 c hc] at hv; cases hv
  · intro q hq
    have : q = .not (.query 0 (.equals (some 1))) := (Option.some.inj hq).symm
    subst this
    refine ⟨⟨_, rfl, ?_, ?_⟩, fun h => (nomatch h), fun _ => ?_⟩
    · intro h; cases h
    · intro h; cases h
    · show List.Perm _ _
      decide +kernel

/-- `NOT (b IS TRUE)` loses the row of the fragment that the index does not cover where `b` is NULL: the query is turned
back into `NOT (b = true)`.  Without the index it is returned. -/
theorem C92_is_true_violated :
    Meets boolInfo true false boolDs none (fun _ => [0]) (firstRows false boolDs) ⟨[], []⟩ notIsTrue ∧
    (filteredScan boolInfo true false boolDs none (fun _ => [0]) (columnIndices id (firstRows false boolDs)) ⟨[], []⟩
      notIsTrue).map (fun out => out.map (·.1)) = some [newFromParts 0 0, newFromParts 1 1] ∧
    (filteredScan boolInfo false false boolDs none (fun _ => [0]) (columnIndices id (firstRows false boolDs)) ⟨[], []⟩
      notIsTrue).map (fun out => out.map (·.1)) = some [newFromParts 0 0, newFromParts 1 0, newFromParts 1 1] :=
  ⟨boolDs_meets, by decide +kernel, by decide +kernel⟩

/-! ### Chosen fragments with stable row ids -/

def idsDs : List (Frag Nat) :=
  [⟨0, [exRow (some 5) none, exRow (some 5) none, exRow (some 5) none], none, [.range 0 3], true⟩,
   ⟨1, [exRow (some 7) none], none, [.range 3 4], true⟩]

theorem idsDs_ok : DsOK true idsDs := by
  refine ⟨by decide, by decide, by decide, fun _ f hf => ?_, fun _ => by decide, fun _ => by decide⟩
  rcases mem_two hf with rfl | rfl
  · exact ⟨fragOK_range 0 0 3 none (by decide) (by decide) (fun d h => nomatch h), fun d h => (nomatch h), by decide⟩
  · exact ⟨fragOK_range 1 3 4 none (by decide) (by decide) (fun d h => nomatch h), fun d h => (nomatch h), by decide⟩

theorem idsDs_meets :
    Meets exInfo true true idsDs (some (idsDs.drop 1)) (fun _ => [0, 1]) (fun _ => idsDs.flatMap (Frag.live true))
      ⟨[], idsDs.drop 1⟩ notFive := by
  refine ⟨idsDs_ok, ?_, fun _ => ?_, ⟨trivial, fun h => nomatch h⟩, fun _ _ r _ => exInfo_ok r.2, ?_⟩
  · intro l hl
    cases hl
    exact ⟨fun f hf => List.mem_of_mem_drop hf, by decide⟩
  · exact ⟨by decide +kernel, by decide +kernel, fun f hf _ r hr => List.mem_flatMap.mpr ⟨f, hf, hr⟩, fun h => nomatch h⟩
  · intro q hq
    rw [notFive_query rfl hq]
    refine ⟨⟨_, rfl, ?_, ?_⟩, fun _ => List.Perm.refl _, fun h => nomatch h⟩
    · intro h; cases h
    · intro h; cases h

/-- With stable row ids, a scan of one fragment for `x != 5` panics if more rows have `x = 5` than the fragment has
rows: the number of blocked rows is taken from the number of rows.  Nothing is NULL or deleted. -/
theorem C92_capacity_violated :
    Meets exInfo true true idsDs (some (idsDs.drop 1)) (fun _ => [0, 1]) (fun _ => idsDs.flatMap (Frag.live true))
      ⟨[], idsDs.drop 1⟩ notFive ∧
    (filteredScan exInfo true true idsDs (some (idsDs.drop 1)) (fun _ => [0, 1])
      (columnIndices id (fun _ => idsDs.flatMap (Frag.live true))) ⟨[], idsDs.drop 1⟩ notFive).isNone = true :=
  ⟨idsDs_meets, by decide +kernel⟩

theorem C92_violated : ¬ C92_statement := by
  intro h
  obtain ⟨out, h1, _⟩ := h _ _ _ _ _ _ _ _ _ C92_capacity_violated.1
  have := C92_capacity_violated.2
  rw [h1] at this
  cases this

/-! ### Cases that meet the hypotheses -/

/-- Fragments 0 and 2 are covered; a row of fragment 2 has been deleted since, fragment 1 is gone, fragment 3 is new. -/
def mixedDs : List (Frag Nat) :=
  [⟨0, [exRow none (some 3), exRow (some 5) none], none, [], true⟩,
   ⟨2, [exRow (some 5) (some 3), exRow (some 5) (some 4), exRow (some 6) none], some (.set [0]), [], true⟩,
   ⟨3, [exRow (some 5) (some 3), exRow none none, exRow (some 1) (some 3)], none, [], true⟩]

/-- All rows that were there when the indices were built. -/
def mixedT : Nat → Table Nat := fun _ =>
  [(newFromParts 0 0, exRow none (some 3)), (newFromParts 0 1, exRow (some 5) none),
   (newFromParts 1 0, exRow (some 5) (some 5)), (newFromParts 2 0, exRow (some 5) (some 3)),
   (newFromParts 2 1, exRow (some 5) (some 4)), (newFromParts 2 2, exRow (some 6) none)]

/-- `x = 5 OR y IS NULL`. -/
def mixedFilter : Expr Nat := .or (.cmp .eq (.col 0) (.lit (some 5))) (.isNull (.col 1))

theorem mixed_meets :
    Meets exInfo true false mixedDs none (fun _ => [0, 1, 2]) mixedT ⟨[2], []⟩ mixedFilter := by
  refine ⟨dsOK_addresses _ (by decide) (by decide) (by decide), fun l h => (nomatch h), fun _ => ?_,
    ⟨⟨trivial, fun h => nomatch h⟩, trivial⟩, fun _ _ r _ => exInfo_ok r.2, ?_⟩
  · show BuiltOver false mixedDs [0, 1, 2] (mixedT 0)
    refine ⟨by decide +kernel, by decide +kernel, ?_, fun _ => by decide +kernel⟩
    intro f hf hc r hr
    simp only [mixedDs, List.mem_cons, List.not_mem_nil, or_false] at hf
    obtain ⟨v, env⟩ := r
    obtain ⟨o, h1, h2, h3⟩ := mem_live.mp hr
    rcases hf with rfl | rfl | rfl
    · match o, h1, h2, h3 with
      | 0, h1, _, h3 => cases h1; cases h3; exact List.mem_cons_self
      | 1, h1, _, h3 => cases h1; cases h3; exact List.mem_cons_of_mem _ List.mem_cons_self
      | o + 2, h1, _, _ => cases h1
    · match o, h1, h2, h3 with
      | 0, _, h2, _ => cases h2
      | 1, h1, _, h3 =>
        cases h1; cases h3
        exact List.mem_cons_of_mem _ (List.mem_cons_of_mem _ (List.mem_cons_of_mem _ (List.mem_cons_of_mem _
          List.mem_cons_self)))
      | 2, h1, _, h3 =>
        cases h1; cases h3
        exact List.mem_cons_of_mem _ (List.mem_cons_of_mem _ (List.mem_cons_of_mem _ (List.mem_cons_of_mem _
          (List.mem_cons_of_mem _ List.mem_cons_self))))
      | o + 3, h1, _, _ => cases h1
    · exact absurd hc (by decide)
  · intro q hq
    have : q = .or (.query 0 (.equals (some 5))) (.query 1 .isNull) := (Option.some.inj hq).symm
    subst this
    refine ⟨⟨⟨_, rfl, ?_, ?_⟩, ⟨_, rfl, ?_, ?_⟩⟩, fun h => (nomatch h), fun _ => ?_⟩
    · intro h; cases h
    · intro h; cases h
    · intro h; cases h
    · intro h; cases h
    · show List.Perm _ _
      decide +kernel

/-- The deleted row is not returned, nor a row of the fragment that is gone; rows of the new fragment are. -/
theorem C92_nonvacuous :
    (∃ out, filteredScan exInfo true false mixedDs none (fun _ => [0, 1, 2]) (columnIndices id mixedT) ⟨[2], []⟩
      mixedFilter = some out ∧ Answers exInfo.ofBool false mixedDs mixedFilter out) ∧
    (filteredScan exInfo true false mixedDs none (fun _ => [0, 1, 2]) (columnIndices id mixedT) ⟨[2], []⟩
      mixedFilter).map (fun out => out.map (·.1)) =
      some [newFromParts 0 1, newFromParts 2 1, newFromParts 2 2, newFromParts 3 0, newFromParts 3 1] := by
  refine ⟨?_, by decide +kernel⟩
  have h := mixed_meets
  exact C92_bitmap_positive_partial exInfo true false mixedDs none _ id (fun l => List.Perm.refl l) mixedT h.built _ _
    h.readable h.choice h.lits ⟨(fun h => nomatch h), trivial⟩ h.info h.query

/-- Stable row ids, a deletion bitmap, an index that covers the first fragment only, and `x BETWEEN 2 AND 6`. -/
def stableDs : List (Frag Nat) :=
  [⟨0, [exRow (some 5) none, exRow (some 4) none, exRow none none], some (.bitmap [1]), [.range 10 13], true⟩,
   ⟨1, [exRow (some 7) none, exRow (some 2) none], none, [.range 3 5], true⟩]

def stableFilter : Expr Nat := .between (.col 0) (.lit (some 2)) (.lit (some 6)) false

theorem stable_meets :
    Meets exInfo true true stableDs none (fun _ => [0]) (firstRows true stableDs) ⟨[], stableDs.take 1⟩ stableFilter := by
  refine ⟨?_, fun l h => (nomatch h), fun _ => ?_, ⟨trivial, fun h => (nomatch h), fun h => nomatch h⟩,
    fun _ _ r _ => exInfo_ok r.2, ?_⟩
  · refine ⟨by decide, by decide, by decide, fun _ f hf => ?_, fun _ => by decide, fun _ => by decide⟩
    rcases mem_two hf with rfl | rfl
    · refine ⟨fragOK_range 0 10 13 _ (by decide) (by decide) ?_, ?_, by decide⟩
      · intro d h
        cases h
        refine ⟨by simp [Deletion.DV.WF, Bm.Sorted], ?_⟩
        intro o ho
        simp only [Deletion.DV.contains, List.contains_eq_mem, decide_eq_true_eq, List.mem_cons, List.not_mem_nil,
          or_false] at ho
        omega
      · intro d h; cases h; exact List.pairwise_singleton _ _
    · exact ⟨fragOK_range 1 3 5 none (by decide) (by decide) (fun d h => nomatch h), fun d h => (nomatch h), by decide⟩
  · show BuiltOver true stableDs [0] (firstRows true stableDs 0)
    refine ⟨by decide +kernel, by decide +kernel, ?_, fun h => nomatch h⟩
    intro f hf hc r hr
    rcases mem_two hf with rfl | rfl
    · exact List.mem_flatMap.mpr ⟨_, List.mem_cons_self, hr⟩
    · exact absurd hc (by decide)
  · intro q hq
    have : q = .query 0 (.range (.incl (some 2)) (.incl (some 6))) := (Option.some.inj hq).symm
    subst this
    refine ⟨⟨_, rfl, ?_, ?_⟩, fun _ => List.Perm.refl _, fun h => nomatch h⟩
    · show ¬ (Scalar.LinOrd.le 2 6 = false)
      decide
    · simp [Scalar.Pinched]

theorem C92_stable_nonvacuous :
    (∃ out, filteredScan exInfo true true stableDs none (fun _ => [0]) (columnIndices id (firstRows true stableDs))
      ⟨[], stableDs.take 1⟩ stableFilter = some out ∧ Answers exInfo.ofBool true stableDs stableFilter out) ∧
    (filteredScan exInfo true true stableDs none (fun _ => [0]) (columnIndices id (firstRows true stableDs))
      ⟨[], stableDs.take 1⟩ stableFilter).map (fun out => out.map (·.1)) = some [10, 4] := by
  refine ⟨?_, by decide +kernel⟩
  have h := stable_meets
  exact C92_bitmap_positive_partial exInfo true true stableDs none _ id (fun l => List.Perm.refl l) _ h.built _ _
    h.readable h.choice h.lits rfl h.info h.query

theorem idsAll_meets :
    Meets exInfo true true idsDs none (fun _ => [0, 1]) (fun _ => idsDs.flatMap (Frag.live true)) ⟨[], idsDs.reverse⟩
      notFive := by
  refine ⟨idsDs_ok, fun l h => (nomatch h), idsDs_meets.built, idsDs_meets.lits, fun _ _ r _ => exInfo_ok r.2, ?_⟩
  intro q hq
  rw [notFive_query rfl hq]
  refine ⟨⟨_, rfl, ?_, ?_⟩, fun _ => List.reverse_perm _, fun h => nomatch h⟩
  · intro h; cases h
  · intro h; cases h

/-- `x != 5` over all fragments, none of which has a NULL: the scan completes. -/
theorem C92_negated_nonvacuous :
    (∃ out, filteredScan exInfo true true idsDs none (fun _ => [0, 1])
      (columnIndices id (fun _ => idsDs.flatMap (Frag.live true))) ⟨[], idsDs.reverse⟩ notFive = some out ∧
      Answers exInfo.ofBool true idsDs notFive out) ∧
    (filteredScan exInfo true true idsDs none (fun _ => [0, 1])
      (columnIndices id (fun _ => idsDs.flatMap (Frag.live true))) ⟨[], idsDs.reverse⟩ notFive).map
      (fun out => out.map (·.1)) = some [3] := by
  refine ⟨?_, by decide +kernel⟩
  have h := idsAll_meets
  have hX := indicesOK_columns true idsDs _ id (fun l => List.Perm.refl l) _ h.built
  refine C92_row_ids_partial exInfo true idsDs none _ _ _ _ h.readable h.choice hX h.lits ?_ ?_
  · intro f hf r hr
    refine ⟨exInfo_ok r.2, ?_, trivial⟩
    obtain ⟨v, env⟩ := r
    obtain ⟨o, h1, _⟩ := mem_live.mp hr
    have hin := List.mem_of_getElem? h1
    rcases mem_two hf with rfl | rfl
    · simp only [List.mem_cons, List.not_mem_nil, or_false, or_self] at hin
      subst hin
      exact ⟨fun h => (nomatch h), fun h => nomatch h⟩
    · simp only [List.mem_cons, List.not_mem_nil, or_false, or_self] at hin
      subst hin
      exact ⟨fun h => (nomatch h), fun h => nomatch h⟩
  · intro q hq
    refine ⟨?_, (h.query q hq).2, ?_⟩
    · rw [notFive_query rfl hq]; exact fun h => nomatch h
    · rw [notFive_query rfl hq]
      refine ⟨⟨none, some [(0, .part [0, 1, 2])]⟩, by decide +kernel, ?_⟩
      intro b hb v hv hc
      cases hb
      refine ⟨_, List.mem_cons_self, by decide, ?_⟩
      have hc : contains [(0, .part [0, 1, 2])] v = true := hc
      rw [RowSet.contains_eq] at hc
      have hs := RowSet.addr_split (a := v) (by omega)
      have key : fragmentId v = 0 ∧ rowOffset v ∈ [0, 1, 2] := by
        unfold RowSet.memAt at hc
        by_cases h0 : fragmentId v = 0
        · rw [h0] at hc
          refine ⟨h0, ?_⟩
          simpa [SMap.get, RowSet.selHas] using hc
        · simp [SMap.get, RowSet.selHas, h0, Ne.symm h0] at hc
      have hvv : v = rowOffset v := by rw [key.1] at hs; omega
      rw [hvv]
      show rowOffset v ∈ RowIds.Seq.iter [Seg.range 0 3]
      exact key.2

end Verif.Iscan
