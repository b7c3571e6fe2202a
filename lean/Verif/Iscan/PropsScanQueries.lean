import Verif.Iscan.LemmasScan
import Verif.Iscan.LemmasExpr

/-!
# C92: more about the two paths of a scan: queries made back into filters, and masks with whole fragments
-/
namespace Verif.Iscan
open Verif
open Verif.RowSet (TreeMap Mask contains selected fragmentId rowOffset)
open Verif.Expr
open Verif.Scalar (LinOrd Bd LQuery)

variable {V : Type}

/-- A query of an index on a scalar column without NULL literals and with a bound, made back into a filter, is true on
exactly the rows that satisfy it.  (The planner makes only some of these.) -/
theorem C92_query_as_filter [LinOrd V] [DecidableEq V] (ofBool : Bool → V) (env : Env V) (c : Nat) (q : SQuery V)
    (q' : Scalar.Query V) (h : q.toScalar = some q') (hb : q' ≠ .range .unb .unb) (hw : q' ≠ .equals none)
    (hn : ∀ ws, q' = .isIn ws → none ∉ ws) :
    (queryExpr c q).eval ofBool env = some true ↔ Scalar.Sat q' (env.val c) := by
  cases q with
  | isNull =>
    cases h
    simp [queryExpr, Expr.eval, Tm.eval, Scalar.Sat]
  | equals w =>
    cases h
    cases w with
    | none => exact absurd rfl hw
    | some w => cases hv : env.val c <;> simp [queryExpr, Expr.eval, Tm.eval, Scalar.Sat, cmp3, cmpVal, hv]
  | isIn ws =>
    cases h
    have hn' := hn ws rfl
    simp only [queryExpr, Expr.eval, Tm.eval, Scalar.Sat, neg3, List.map_map]
    rw [show (Tm.eval env ∘ Tm.lit) = (id : Option V → Option V) from rfl, List.map_id]
    simp only [Bool.false_eq_true, if_false]
    clear hn hb hw
    induction ws with
    | nil => simp [in3]
    | cons w ws ih =>
      have h1 : w ≠ none := fun e => hn' (by simp [e])
      have h2 : in3 (env.val c) ws = some true ↔ env.val c ∈ ws := ih (fun e => hn' (List.mem_cons_of_mem _ e))
      cases w with
      | none => exact absurd rfl h1
      | some w =>
        rw [List.mem_cons, ← h2, in3]
        cases hv : env.val c with
        | none =>
          simp only [cmp3]
          cases in3 none ws with
          | none => simp [or3]
          | some b => cases b <;> simp [or3]
        | some v =>
          simp only [cmp3, cmpVal]
          by_cases e : v = w
          · subst e
            simp [or3]
          · have : (v == w) = false := by simp [e]
            rw [this]
            cases in3 (some v) ws with
            | none => simp [or3, e]
            | some b => cases b <;> simp [or3, e]
  | range lo hi =>
    cases hv : env.val c with
    | none =>
      rcases lo with (_ | l) | (_ | l) | _ <;> rcases hi with (_ | u) | (_ | u) | _ <;> cases h <;>
        first
        | exact absurd rfl hb
        | simp [queryExpr, Expr.eval, Tm.eval, Scalar.Sat, cmp3, and3, neg3, hv]
    | some v =>
      rcases lo with (_ | l) | (_ | l) | _ <;> rcases hi with (_ | u) | (_ | u) | _ <;> cases h <;>
        first
        | exact absurd rfl hb
        | (simp only [queryExpr, Expr.eval, Tm.eval, Scalar.Sat, cmp3, neg3, hv, cmpVal, Scalar.Above, Scalar.Below, and3_true,
            Option.some.injEq, exists_eq_left', true_and, and_true, Bool.false_eq_true, if_false]
           try grind)

/-- If the allow list of a mask has whole fragments among those scanned, and rows are known by their addresses, the rows of
the fragments that the mask selects are returned, each once. -/
theorem C92_whole_fragments {ds frags arrive : List (Frag V)} (h : DsOK false ds) (hf : ∀ f ∈ frags, f ∈ ds)
    (hd : (frags.map (·.id)).Nodup) (a : TreeMap) (ha : SMap.Sorted a) (b : Option TreeMap)
    (hw : RowSet.rowIds (RowSet.retainFragments a (frags.map (·.id))) = none) :
    ∃ ids, rowIdsForMask false frags arrive ⟨some a, b⟩ = some ids ∧ ids.Nodup ∧
      ∀ v, v ∈ ids ↔ (∃ f ∈ frags, f.id = fragmentId v ∧ rowOffset v < f.rows.length) ∧ v < 2 ^ 64 ∧
        selected ⟨some a, b⟩ v = true := by
  have hnd : (frags.flatMap (Frag.keys false)).Nodup :=
    nodup_keys ⟨hd, fun f hm => h.id32 f (hf f hm), fun f hm => h.rows32 f (hf f hm), fun h => (nomatch h),
      fun h => (nomatch h), fun h => (nomatch h)⟩
  have hmem : ∀ v, v ∈ frags.flatMap (Frag.keys false) ↔
      v < 2 ^ 64 ∧ ∃ f ∈ frags, f.id = fragmentId v ∧ rowOffset v < f.rows.length := by
    intro v
    rw [List.mem_flatMap]
    constructor
    · rintro ⟨f, hm, hv⟩
      rw [mem_keys_address (h.rows32 f (hf f hm)) (h.id32 f (hf f hm))] at hv
      exact ⟨hv.1, f, hm, hv.2.1.symm, hv.2.2⟩
    · rintro ⟨h1, f, hm, h2, h3⟩
      exact ⟨f, hm, (mem_keys_address (h.rows32 f (hf f hm)) (h.id32 f (hf f hm))).mpr ⟨h1, h2.symm, h3⟩⟩
  have hret : ∀ v, (∃ f ∈ frags, f.id = fragmentId v ∧ rowOffset v < f.rows.length) →
      contains (RowSet.retainFragments a (frags.map (·.id))) v = contains a v := by
    rintro v ⟨f, hm, he, _⟩
    rw [Bool.eq_iff_iff, contains_retain ha]
    exact ⟨fun h => h.1, fun h => ⟨h, he ▸ List.mem_map_of_mem hm⟩⟩
  unfold rowIdsForMask retain
  simp only [Bool.false_eq_true, if_false, fragIds_keys, Option.bind_some]
  cases b with
  | none =>
    simp only [hw]
    refine ⟨_, rfl, hnd.filter _, fun v => ?_⟩
    rw [List.mem_filter, hmem]
    constructor
    · rintro ⟨⟨h1, h2⟩, h3⟩
      rw [hret v h2] at h3
      exact ⟨h2, h1, h3⟩
    · rintro ⟨h2, h1, h3⟩
      exact ⟨⟨h1, h2⟩, by rw [hret v h2]; exact h3⟩
  | some b =>
    simp only [hw]
    refine ⟨_, rfl, hnd.filter _, fun v => ?_⟩
    rw [List.mem_filter, hmem]
    simp only [selected, Bool.and_eq_true]
    constructor
    · rintro ⟨⟨h1, h2⟩, h4, h3⟩
      rw [hret v h2] at h3
      exact ⟨h2, h1, h3, h4⟩
    · rintro ⟨h2, h1, h3, h4⟩
      exact ⟨⟨h1, h2⟩, h4, by rw [hret v h2]; exact h3⟩

/-- All of fragment 1 and a row of fragment 0, without a blocked row. -/
theorem C92_whole_fragments_nonvacuous :
    rowIdsForMask (V := Nat) false
      [⟨0, [⟨fun _ => none, fun _ => none, fun _ => none, fun _ => none⟩,
            ⟨fun _ => none, fun _ => none, fun _ => none, fun _ => none⟩], none, [], true⟩,
       ⟨1, [⟨fun _ => none, fun _ => none, fun _ => none, fun _ => none⟩,
            ⟨fun _ => none, fun _ => none, fun _ => none, fun _ => none⟩], none, [], true⟩] []
      ⟨some [(0, .part [1]), (1, .full), (7, .full)], some [(1, .part [0])]⟩ = some [1, 4294967297] := by decide +kernel

end Verif.Iscan
