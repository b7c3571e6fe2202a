import Verif.Deletion.Lemmas

/-!
# Properties C05, C06, C48: deletion vectors, live rows, delete
-/
namespace Verif.Deletion
open Verif

/-! ## C05 Deletion vectors have set semantics -/

/-- A deletion vector built by `collect`/`extend` calls; each call has a size hint (lower, upper). -/
def build (calls : List ((Nat × Option Nat) × List Nat)) : DV :=
  calls.foldl (fun d c => d.extend c.1.1 c.1.2 c.2) .none

/-- The size hints are truthful (what `Iterator::size_hint` promises). -/
def HintsOk (calls : List ((Nat × Option Nat) × List Nat)) : Prop :=
  ∀ c ∈ calls, c.1.1 ≤ c.2.length ∧ ∀ u, c.1.2 = some u → c.2.length ≤ u

theorem foldl_extend (calls : List ((Nat × Option Nat) × List Nat)) (d : DV) (hd : d.WF)
    (h : HintsOk calls) :
    (calls.foldl (fun d c => d.extend c.1.1 c.1.2 c.2) d).WF ∧
    ∀ i, (calls.foldl (fun d c => d.extend c.1.1 c.1.2 c.2) d).contains i = true ↔
      d.contains i = true ∨ ∃ c ∈ calls, i ∈ c.2 := by
  induction calls generalizing d with
  | nil => simp [hd]
  | cons c cs ih =>
    obtain ⟨h1, h2⟩ := ih (d.extend c.1.1 c.1.2 c.2) (extend_wf d hd _ _ _)
      (fun c' hc' => h c' (List.mem_cons_of_mem _ hc'))
    refine ⟨h1, fun i => ?_⟩
    simp only [List.foldl_cons]
    rw [h2, extend_contains d _ _ _ (h c List.mem_cons_self).2]
    simp only [List.mem_cons, exists_eq_or_imp]
    rw [or_assoc]

/-- C05: after any extensions, an offset is deleted exactly when one of the calls contained it. -/
theorem C05_membership (calls : List ((Nat × Option Nat) × List Nat)) (h : HintsOk calls) (i : Nat) :
    (build calls).contains i = true ↔ ∃ c ∈ calls, i ∈ c.2 := by
  have := (foldl_extend calls .none trivial h).2 i
  have e : DV.contains .none i = false := rfl
  rw [e] at this
  simpa [build] using this

/-- C05: sorted iteration lists exactly the deleted offsets, strictly increasing, and `len` is their
number. -/
theorem C05_sorted_iter_len (calls : List ((Nat × Option Nat) × List Nat)) (h : HintsOk calls) :
    (build calls).sortedIter.Pairwise (· < ·) ∧
    (∀ i, i ∈ (build calls).sortedIter ↔ (build calls).contains i = true) ∧
    (build calls).len = (build calls).sortedIter.length := by
  have hw := (foldl_extend calls .none trivial h).1
  exact ⟨sorted_sortedIter _ hw, mem_sortedIter _, (len_sortedIter _ hw).symm⟩

/-- C05: `range_cardinality` counts the deleted offsets of the range, in every representation. -/
theorem C05_range_cardinality (d : DV) (hd : d.WF) (a b : Nat) (hab : a ≤ b) :
    d.rangeCardinality a b = countBelow d.contains b - countBelow d.contains a := by
  have := rangeCardinality_spec d hd a b hab
  omega

theorem countBelow_full (p : Nat → Bool) (n : Nat) (h : countBelow p n = n) :
    ∀ i, i < n → p i = true := by
  induction n with
  | zero => intro i hi; omega
  | succ n ih =>
    simp only [countBelow] at h
    have hle := countBelow_le p n
    intro i hi
    by_cases hp : p n = true
    · simp only [hp, if_true] at h
      by_cases hin : i = n
      · subst hin; exact hp
      · exact ih (by omega) i (by omega)
    · simp only [hp] at h
      simp at h
      omega

theorem countBelow_range_full (p : Nat → Bool) (a k : Nat)
    (h : countBelow p (a + k) = countBelow p a + k) : ∀ i, a ≤ i → i < a + k → p i = true := by
  induction k with
  | zero => intro i h1 h2; omega
  | succ k ih =>
    rw [← Nat.add_assoc] at h
    simp only [countBelow] at h
    have hle := countBelow_add p a k
    intro i h1 hi
    by_cases hp : p (a + k) = true
    · simp only [hp, if_true] at h
      by_cases hin : i = a + k
      · subst hin; exact hp
      · exact ih (by omega) i h1 (by omega)
    · simp only [hp] at h
      simp at h
      omega

theorem countBelow_range_full' (p : Nat → Bool) (a k : Nat)
    (h : ∀ i, a ≤ i → i < a + k → p i = true) : countBelow p (a + k) = countBelow p a + k := by
  induction k with
  | zero => rfl
  | succ k ih =>
    rw [← Nat.add_assoc]
    simp only [countBelow]
    rw [ih (fun i h1 h2 => h i h1 (by omega)), h (a + k) (by omega) (by omega)]
    simp; omega

/-- C05: `contains_range` holds exactly when every offset of the range is deleted. -/
theorem C05_contains_range (d : DV) (hd : d.WF) (a b : Nat) :
    d.containsRange a b = true ↔ ∀ i, a ≤ i → i < b → d.contains i = true := by
  cases d with
  | none =>
    simp only [DV.containsRange, DV.contains, decide_eq_true_eq]
    constructor
    · intro h i h1 h2; omega
    · intro h
      false_or_by_contra
      exact absurd (h a (Nat.le_refl _) (by omega)) (by simp)
  | set s =>
    simp only [DV.containsRange, DV.contains, List.all_eq_true, List.mem_range'_1]
    constructor
    · intro h i h1 h2; exact h i ⟨h1, by omega⟩
    · rintro h i ⟨h1, h2⟩; exact h i h1 (by omega)
  | bitmap s =>
    simp only [DV.containsRange, decide_eq_true_eq]
    by_cases hab : a ≤ b
    · have hc := countP_range s (Sorted.nodup hd) a b hab
      rw [List.countP_eq_length_filter] at hc
      have e : DV.contains (.bitmap s) = fun i => s.contains i := rfl
      rw [e]
      obtain ⟨k, rfl⟩ := Nat.exists_eq_add_of_le hab
      constructor
      · intro h
        exact countBelow_range_full _ a k (by omega)
      · intro h
        have := countBelow_range_full' _ a k h
        omega
    · constructor
      · intro _ i h1 h2; omega
      · intro _
        have : s.filter (fun x => decide (a ≤ x) && decide (x < b)) = [] := by
          rw [List.filter_eq_nil_iff]
          intro x _
          simp; omega
        rw [this]; simp; omega

/-- C05: the keep mask for row addresses says "not deleted" for the low 32 bits of each address, and
is absent only without deletions. -/
theorem C05_build_predicate (d : DV) (ids : List Nat) :
    (d.buildPredicate ids = none ↔ d = .none) ∧
    ∀ m, d.buildPredicate ids = some m → m = ids.map (fun id => !d.contains (id % 2 ^ 32)) := by
  cases d with
  | none => simp [DV.buildPredicate]
  | set s => refine ⟨by simp [DV.buildPredicate], ?_⟩
             intro m h; simp only [DV.buildPredicate, Option.some.injEq] at h; rw [← h]; rfl
  | bitmap s => refine ⟨by simp [DV.buildPredicate], ?_⟩
                intro m h; simp only [DV.buildPredicate, Option.some.injEq] at h; rw [← h]; rfl

/-- The full claim for equality of deletion vectors. -/
def C05_eq_statement : Prop :=
  ∀ d e : DV, d.WF → e.WF → (d.eq e = true ↔ ∀ i, d.contains i = e.contains i)

/-- Equality depends on the representation: `NoDeletions` differs from an empty set. -/
theorem C05_eq_violated : ¬ C05_eq_statement := by
  intro h
  have := (h .none (.set []) trivial List.nodup_nil).2 (by intro i; rfl)
  exact absurd this (by decide)

theorem subset_eq_of_length {s t : List Nat} (hs : s.Nodup) (ht : t.Nodup) (hlen : s.length = t.length)
    (hsub : ∀ x ∈ s, x ∈ t) : ∀ x ∈ t, x ∈ s := by
  intro x hx
  false_or_by_contra
  rename_i hn
  have h1 : (x :: s).Nodup := List.nodup_cons.2 ⟨hn, hs⟩
  have h2 : ∀ y ∈ x :: s, y ∈ t := by
    intro y hy
    rcases List.mem_cons.1 hy with rfl | hy
    · exact hx
    · exact hsub y hy
  have h3 : (x :: s).length ≤ t.length := nodup_length_le h1 h2
  simp at h3; omega

/-- C05 (partial): equality is set equality when neither or both sides are `NoDeletions`. -/
theorem C05_eq_partial (d e : DV) (hd : d.WF) (he : e.WF) (hn : d = .none ↔ e = .none) :
    d.eq e = true ↔ ∀ i, d.contains i = e.contains i := by
  have hb : ∀ (s t : List Nat), (∀ i, s.contains i = t.contains i) ↔ ∀ i, i ∈ s ↔ i ∈ t := by
    intro s t
    refine forall_congr' fun i => ?_
    rw [Bool.eq_iff_iff]; simp
  cases d with
  | none =>
    have : e = .none := hn.1 rfl
    subst this; simp [DV.eq]
  | set s =>
    cases e with
    | none => exact absurd (hn.2 rfl) (by simp)
    | set t =>
      simp only [DV.eq, DV.contains, hb, Bool.and_eq_true, decide_eq_true_eq, List.all_eq_true,
        List.contains_iff_mem]
      constructor
      · rintro ⟨h1, h2⟩ i
        exact ⟨h2 i, subset_eq_of_length hd he h1 h2 i⟩
      · intro h
        exact ⟨nodup_length_eq hd he h, fun x hx => (h x).1 hx⟩
    | bitmap t =>
      simp only [DV.eq, DV.contains, hb, decide_eq_true_eq]
      constructor
      · rintro rfl i; simp
      · intro h
        exact Bm.Sorted.ext (Bm.sorted_ofList s) he (by simpa using h)
  | bitmap s =>
    cases e with
    | none => exact absurd (hn.2 rfl) (by simp)
    | set t =>
      simp only [DV.eq, DV.contains, hb, decide_eq_true_eq]
      constructor
      · rintro rfl i; simp
      · intro h
        exact Bm.Sorted.ext (Bm.sorted_ofList t) hd (by simpa using fun i => (h i).symm)
    | bitmap t =>
      simp only [DV.eq, DV.contains, hb, decide_eq_true_eq]
      constructor
      · rintro rfl i; exact Iff.rfl
      · intro h; exact Bm.Sorted.ext hd he h

example : HintsOk [((2, some 2), [7, 3]), ((0, none), [3, 9])] ∧
    (build [((2, some 2), [7, 3]), ((0, none), [3, 9])]).sortedIter = [3, 7, 9] := by
  refine ⟨?_, by decide⟩
  intro c hc
  simp only [List.mem_cons, List.not_mem_nil, or_false] at hc
  rcases hc with rfl | rfl <;> simp

/-! ## C06 Logical row numbers map to the right surviving row -/

theorem liveBelow_mono (del : Nat → Bool) {a b : Nat} (h : a ≤ b) : liveBelow del a ≤ liveBelow del b :=
  countBelow_mono _ h

theorem liveBelow_succ (del : Nat → Bool) (a : Nat) :
    liveBelow del (a + 1) = liveBelow del a + (if del a then 0 else 1) := by
  simp only [liveBelow, countBelow]
  by_cases h : del a = true <;> simp [h]

theorem deleted_live (del : Nat → Bool) (a : Nat) : countBelow del a + liveBelow del a = a :=
  countBelow_not del a

/-- The specification determines the row. -/
theorem nthLive_unique (del : Nat → Bool) {n a b : Nat} (ha : IsNthLive del n a) (hb : IsNthLive del n b) :
    a = b := by
  rcases Nat.lt_trichotomy a b with h | h | h
  · have h1 := liveBelow_mono del (a := a + 1) (b := b) h
    rw [liveBelow_succ, ha.1, ha.2, hb.2] at h1; simp at h1; omega
  · exact h
  · have h1 := liveBelow_mono del (a := b + 1) (b := a) h
    rw [liveBelow_succ, hb.1, hb.2, ha.2] at h1; simp at h1; omega

theorem nthLive_exists_of (del : Nat → Bool) (n m : Nat) (h : n < liveBelow del m) :
    ∃ a, IsNthLive del n a ∧ a < m := by
  induction m with
  | zero => simp [liveBelow, countBelow] at h
  | succ m ih =>
    rw [liveBelow_succ] at h
    by_cases h1 : n < liveBelow del m
    · obtain ⟨a, ha, hm⟩ := ih h1; exact ⟨a, ha, by omega⟩
    · cases hd : del m
      · simp [hd] at h
        exact ⟨m, ⟨hd, by omega⟩, by omega⟩
      · simp [hd] at h; omega

/-- With finitely many deletions every live row number exists. -/
theorem nthLive_exists (d : DV) (hd : d.WF) (n : Nat) :
    ∃ a, IsNthLive d.contains n a ∧ a ≤ n + d.len := by
  have h1 := deleted_live d.contains (n + d.len + 1)
  have h2 := countBelow_le_len d hd (n + d.len + 1)
  obtain ⟨a, ha, hl⟩ := nthLive_exists_of d.contains n (n + d.len + 1) (by omega)
  exact ⟨a, ha, by omega⟩

theorem mapLoop_correct (d : DV) (hd : d.WF) (offset a : Nat) (ha : IsNthLive d.contains offset a)
    (fuel left right mid : Nat) (h1 : left ≤ a) (h2 : a ≤ right) (h3 : left ≤ mid) (h4 : mid ≤ right)
    (hr : right + 1 < 4294967296) (hoff : offset + d.len < 4294967296)
    (hfuel : 2 * (right - left) + (if mid = right then 1 else 0) < fuel) :
    ∃ l, mapLoop d offset fuel left right mid = .ok a ⟨l, a - offset⟩ ∧ l ≤ a := by
  induction fuel generalizing left right mid with
  | zero => omega
  | succ fuel ih =>
    have hcard : d.rangeCardinality 0 (mid + 1) = countBelow d.contains (mid + 1) := by
      have := rangeCardinality_spec d hd 0 (mid + 1) (by omega)
      simpa [countBelow] using this
    have hlen := countBelow_le_len d hd (mid + 1)
    have hdl := deleted_live d.contains (mid + 1)
    have hdlm := deleted_live d.contains mid
    have hls := liveBelow_succ d.contains mid
    have hla := liveBelow_succ d.contains a
    rw [ha.1, ha.2] at hla
    simp only [Bool.false_eq_true, if_false] at hla
    unfold mapLoop
    rw [if_neg (by omega)]
    simp only [hcard]
    rw [if_neg (by omega)]
    split
    · rename_i hc
      have hm : IsNthLive d.contains offset mid := by
        refine ⟨hc.2, ?_⟩
        rw [hc.2] at hls; simp at hls; omega
      have : mid = a := nthLive_unique _ hm ha
      subst this
      exact ⟨left, rfl, h1⟩
    · rename_i hc
      split
      · rename_i hlt
        -- live rows up to mid: at most offset, so the answer is to the right
        have hgt : mid < a := by
          false_or_by_contra
          have := liveBelow_mono d.contains (a := a + 1) (b := mid + 1) (by omega)
          omega
        rw [if_neg (by omega), if_neg (by omega)]
        refine ih (mid + 1) right _ (by omega) h2 (by omega) (by omega) hr ?_
        split <;> split at hfuel <;> omega
      · rename_i hge
        have hlt : a < mid := by
          false_or_by_contra
          rename_i hna
          by_cases hm : mid = a
          · subst hm
            rw [ha.1] at hc
            have : mid = offset + countBelow d.contains (mid + 1) := by omega
            exact hc ⟨this, rfl⟩
          · have h5 := liveBelow_mono d.contains (a := mid + 1) (b := a) (by omega)
            have := ha.2
            omega
        rw [if_neg (by omega)]
        refine ih left mid _ h1 (by omega) (by omega) (by omega) (by omega) ?_
        split <;> split at hfuel <;> omega

/-- C06: for any deletion set and any non-decreasing sequence of live row numbers, the mapper
returns the physical rows with these live row numbers.  It does not panic and does not loop.
(`f o` is the physical row of live row `o`; row numbers stay below 2^32.) -/
theorem C06_offset_mapper (d : DV) (hd : d.WF) (f : Nat → Nat)
    (hf : ∀ o, IsNthLive d.contains o (f o)) (os : List Nat) (hs : os.Pairwise (· ≤ ·))
    (hb : ∀ o ∈ os, o + d.len + 1 < 2 ^ 32) :
    mapAll d (2 ^ 34) {} os = some (os.map f) := by
  -- the first call starts from scratch
  cases os with
  | nil => rfl
  | cons o os =>
    have hbo : o + d.len + 1 < 4294967296 := by simpa using hb o List.mem_cons_self
    have hfo := hf o
    have e1 := deleted_live d.contains (f o)
    have l1 := countBelow_le_len d hd (f o)
    rw [hfo.2] at e1
    obtain ⟨l, hl1, hl2⟩ := mapLoop_correct d hd o (f o) hfo (2 ^ 34) 0 (o + d.len)
      (o + 0) (by omega) (by omega) (by omega) (by omega) (by omega) (by omega)
      (by split <;> omega)
    unfold mapAll mapOffset
    simp only
    rw [if_neg (by omega), if_neg (by omega), hl1]
    simp only
    have : mapAll d (2 ^ 34) ⟨l, f o - o⟩ os = some (os.map f) := by
      have hgen : ∀ (os : List Nat) (st : Mapper) (prev : Nat), os.Pairwise (· ≤ ·) →
          (∀ o ∈ os, o + d.len + 1 < 2 ^ 32) → (st.left ≤ f prev) → (st.lastDiff = f prev - prev) →
          (∀ o ∈ os, prev ≤ o) → mapAll d (2 ^ 34) st os = some (os.map f) := by
        intro os
        induction os with
        | nil => intro st prev _ _ _ _ _; rfl
        | cons o os ih =>
          intro st prev hs hb hl hdiff hprev
          have hpo := hprev o List.mem_cons_self
          have hbo := hb o List.mem_cons_self
          have hfo := hf o
          have hfp := hf prev
          have e1 := deleted_live d.contains (f o)
          have e2 := deleted_live d.contains (f prev)
          have l1 := countBelow_le_len d hd (f o)
          have l2 := countBelow_le_len d hd (f prev)
          have hle : f prev ≤ f o := by
            false_or_by_contra
            have h1 := liveBelow_mono d.contains (a := f o + 1) (b := f prev) (by omega)
            rw [liveBelow_succ, hfo.1, hfo.2, hfp.2] at h1
            simp at h1; omega
          have m1 := countBelow_mono d.contains hle
          rw [hfo.2] at e1
          rw [hfp.2] at e2
          have hb' : o + d.len + 1 < 4294967296 := by simpa using hbo
          obtain ⟨l, hl1, hl2⟩ := mapLoop_correct d hd o (f o) hfo (2 ^ 34) st.left (o + d.len)
            (o + st.lastDiff) (by omega) (by omega) (by omega) (by omega) (by omega) (by omega)
            (by split <;> omega)
          unfold mapAll mapOffset
          rw [if_neg (by omega), if_neg (by omega), hl1]
          simp only
          rw [ih ⟨l, f o - o⟩ o (List.pairwise_cons.1 hs).2 (fun o' ho' => hb o' (List.mem_cons_of_mem _ ho')) hl2 rfl
            (fun o' ho' => (List.pairwise_cons.1 hs).1 o' ho')]
          rfl
      exact hgen os ⟨l, f o - o⟩ o (List.pairwise_cons.1 hs).2
        (fun o' ho' => hb o' (List.mem_cons_of_mem _ ho')) hl2 rfl
        (fun o' ho' => (List.pairwise_cons.1 hs).1 o' ho')
    rw [this]; rfl

/-- The hypotheses of `C06_offset_mapper` can be met for every deletion vector: the function `f`
exists. -/
theorem nthLive_fun (d : DV) (hd : d.WF) : ∃ f : Nat → Nat, ∀ o, IsNthLive d.contains o (f o) :=
  ⟨fun o => Classical.choose (nthLive_exists d hd o),
    fun o => (Classical.choose_spec (nthLive_exists d hd o)).1⟩

example : mapAll (.set [3, 5]) 100 {} [0, 1, 2, 3, 4, 5, 6] = some [0, 1, 2, 4, 6, 7, 8] := by decide

/-- The order hypothesis is needed: asking for live row 0 after live row 4 makes the search fail
(an assertion or an underflow). -/
theorem C06_mapper_needs_order :
    mapAll (.set [3, 5]) 100 {} [4, 0] = none := by decide

/-! ### Fragment take -/

theorem skipDeleted_spec (del : Nat → Bool) (ds : List Nat) (cur : Nat) (hs : ds.Pairwise (· < ·))
    (hge : ∀ x ∈ ds, cur ≤ x) (hmem : ∀ x, cur ≤ x → (x ∈ ds ↔ del x = true)) :
    let r := skipDeleted ds cur
    cur ≤ r.2 ∧ del r.2 = false ∧ (∀ x, cur ≤ x → x < r.2 → del x = true) ∧
      r.1.Pairwise (· < ·) ∧ (∀ x ∈ r.1, r.2 + 1 ≤ x) ∧
      (∀ x, r.2 + 1 ≤ x → (x ∈ r.1 ↔ del x = true)) ∧ r.2 + r.1.length = cur + ds.length := by
  induction ds generalizing cur with
  | nil =>
    simp only [skipDeleted]
    have h0 : del cur = false := by
      have := hmem cur (Nat.le_refl _)
      cases hd : del cur
      · rfl
      · simp [hd] at this
    refine ⟨Nat.le_refl _, h0, by intro x h1 h2; omega, List.Pairwise.nil, by simp, ?_, trivial⟩
    intro x hx; exact hmem x (by omega)
  | cons d ds ih =>
    have hs' := (List.pairwise_cons.1 hs)
    simp only [skipDeleted]
    split
    · rename_i hdc
      subst hdc
      have := ih (d + 1) hs'.2 (fun x hx => hs'.1 x hx) (by
        intro x hx
        rw [← hmem x (by omega), List.mem_cons]
        constructor
        · exact Or.inr
        · rintro (h | h)
          · omega
          · exact h)
      obtain ⟨h1, h2, h3, h4, h5, h6, h7⟩ := this
      refine ⟨by omega, h2, ?_, h4, h5, h6, by simp only [List.length_cons]; omega⟩
      intro x hx1 hx2
      by_cases hxd : x = d
      · subst hxd; exact (hmem x (Nat.le_refl _)).1 List.mem_cons_self
      · exact h3 x (by omega) hx2
    · rename_i hdc
      have hcd : cur ≤ d := hge d List.mem_cons_self
      have h0 : del cur = false := by
        cases hd : del cur
        · rfl
        · have := (hmem cur (Nat.le_refl _)).2 hd
          rcases List.mem_cons.1 this with h | h
          · exact absurd h.symm hdc
          · have := hs'.1 _ h; omega
      refine ⟨Nat.le_refl _, h0, by intro x h1 h2; omega, hs, ?_, fun x hx => hmem x (by omega), rfl⟩
      intro x hx
      rcases List.mem_cons.1 hx with h | h
      · subst h; omega
      · have := hs'.1 _ h; omega

theorem liveBelow_const (del : Nat → Bool) (a b : Nat) (hab : a ≤ b)
    (h : ∀ x, a ≤ x → x < b → del x = true) : liveBelow del b = liveBelow del a := by
  induction b with
  | zero => have : a = 0 := by omega
            subst this; rfl
  | succ b ih =>
    by_cases hb : a = b + 1
    · subst hb; rfl
    · rw [liveBelow_succ, ih (by omega) (fun x h1 h2 => h x h1 (by omega)), h b (by omega) (by omega)]
      simp

theorem advance_spec (del : Nat → Bool) (n : Nat) (ds : List Nat) (cur : Nat)
    (hs : ds.Pairwise (· < ·)) (hge : ∀ x ∈ ds, cur + 1 ≤ x)
    (hmem : ∀ x, cur + 1 ≤ x → (x ∈ ds ↔ del x = true)) :
    liveBelow del (advance n ds cur + 1) = liveBelow del (cur + 1) + n ∧
      (0 < n → del (advance n ds cur) = false) ∧ advance n ds cur ≤ cur + n + ds.length := by
  induction n generalizing ds cur with
  | zero => simp [advance]
  | succ n ih =>
    obtain ⟨h1, h2, h3, h4, h5, h6, h7⟩ := skipDeleted_spec del ds (cur + 1) hs hge hmem
    simp only [advance]
    have := ih (skipDeleted ds (cur + 1)).1 (skipDeleted ds (cur + 1)).2 h4 h5 h6
    have hc := liveBelow_const del (cur + 1) (skipDeleted ds (cur + 1)).2 h1 h3
    have hsucc := liveBelow_succ del (skipDeleted ds (cur + 1)).2
    rw [h2] at hsucc; simp at hsucc
    refine ⟨by omega, ?_, by omega⟩
    intro _
    cases n with
    | zero => simpa [advance] using h2
    | succ n => exact this.2.1 (by omega)

theorem mem_takeWhile_prop {p : Nat → Bool} {l : List Nat} {x : Nat} (h : x ∈ l.takeWhile p) :
    p x = true := by
  induction l with
  | nil => simp at h
  | cons a l ih =>
    rw [List.takeWhile_cons] at h
    split at h
    · rcases List.mem_cons.1 h with e | e
      · subst e; assumption
      · exact ih e
    · simp at h

theorem takeWhile_sorted (ds : List Nat) (hs : ds.Pairwise (· < ·)) (r : Nat) :
    (ds.takeWhile (fun v => decide (v ≤ r))).length = ds.countP (fun x => decide (x < r + 1)) ∧
    ∀ x ∈ ds.drop (ds.takeWhile (fun v => decide (v ≤ r))).length, r + 1 ≤ x := by
  induction ds with
  | nil => simp
  | cons d ds ih =>
    have hs' := List.pairwise_cons.1 hs
    by_cases h : d ≤ r
    · have h' : d < r + 1 := by omega
      simp only [List.takeWhile_cons, h, decide_true, if_true, List.length_cons, List.countP_cons, h',
        List.drop_succ_cons]
      refine ⟨by rw [(ih hs'.2).1], (ih hs'.2).2⟩
    · have h' : ¬ d < r + 1 := by omega
      simp only [List.takeWhile_cons, h, decide_false, Bool.false_eq_true, if_false, List.length_nil, List.drop_zero]
      have hall : ∀ x ∈ d :: ds, r + 1 ≤ x := by
        intro x hx
        rcases List.mem_cons.1 hx with e | e
        · subst e; omega
        · have := hs'.1 x e; omega
      refine ⟨?_, hall⟩
      symm
      rw [List.countP_eq_zero]
      intro x hx
      have := hall x hx
      simp; omega

theorem takeIndex_spec (ds : List Nat) (hs : ds.Pairwise (· < ·)) (r : Nat) :
    IsNthLive (fun i => ds.contains i) r (takeIndex ds r) ∧ takeIndex ds r ≤ r + ds.length := by
  obtain ⟨hlen, hge⟩ := takeWhile_sorted ds hs r
  have hcount := countP_lt ds (List.Pairwise.imp (fun h => by omega) hs) (r + 1)
  have hdl := deleted_live (fun i => ds.contains i) (r + 1)
  have hdrop : (ds.drop (ds.takeWhile (fun v => decide (v ≤ r))).length).Pairwise (· < ·) :=
    List.Pairwise.sublist (List.drop_sublist _ _) hs
  have hmem : ∀ x, r + 1 ≤ x → (x ∈ ds.drop (ds.takeWhile (fun v => decide (v ≤ r))).length ↔
      ds.contains x = true) := by
    intro x hx
    constructor
    · intro h; simpa using List.mem_of_mem_drop h
    · intro h
      have h' : x ∈ ds := by simpa using h
      rw [← List.takeWhile_append_dropWhile (p := fun v => decide (v ≤ r)) (l := ds)] at h'
      rcases List.mem_append.1 h' with h1 | h1
      · have := mem_takeWhile_prop h1
        simp at this; omega
      · have hdw : ds.dropWhile (fun v => decide (v ≤ r)) =
            ds.drop (ds.takeWhile (fun v => decide (v ≤ r))).length := by
          conv => rhs; arg 2; rw [← List.takeWhile_append_dropWhile (p := fun v => decide (v ≤ r)) (l := ds)]
          rw [List.drop_left' rfl]
        rw [← hdw]; exact h1
  obtain ⟨h1, h2, h3⟩ := advance_spec (fun i => ds.contains i)
    (ds.takeWhile (fun v => decide (v ≤ r))).length _ r hdrop hge hmem
  have hlen2 : (ds.drop (ds.takeWhile (fun v => decide (v ≤ r))).length).length =
    ds.length - (ds.takeWhile (fun v => decide (v ≤ r))).length := by simp
  have hle : (ds.takeWhile (fun v => decide (v ≤ r))).length ≤ ds.length := by
    rw [hlen]; exact List.countP_le_length
  have hlive : ds.contains (takeIndex ds r) = false := by
    by_cases h0 : 0 < (ds.takeWhile (fun v => decide (v ≤ r))).length
    · exact h2 h0
    · have hz : (ds.takeWhile (fun v => decide (v ≤ r))).length = 0 := by omega
      unfold takeIndex
      simp only [hz, advance]
      cases hd : ds.contains r
      · rfl
      · have := liveBelow_succ (fun i => ds.contains i) r
        have h5 := deleted_live (fun i => ds.contains i) r
        simp only [hd, if_true] at this
        omega
  have hs1 := liveBelow_succ (fun i => ds.contains i) (takeIndex ds r)
  simp only [hlive] at hs1
  simp at hs1
  have h1' : liveBelow (fun i => ds.contains i) (takeIndex ds r + 1) = _ := h1
  have h3' : takeIndex ds r ≤ _ := h3
  refine ⟨⟨hlive, ?_⟩, by omega⟩
  simp only [List.contains_eq_mem] at *
  omega

/-- C06: taking rows by live row number from a fragment reads exactly the physical rows with these
numbers, in any request order and with repetitions. -/
theorem C06_fragment_take (d : DV) (hd : d.WF) (f : Nat → Nat)
    (hf : ∀ o, IsNthLive d.contains o (f o)) (indices : List Nat) :
    takeIndices (some d) indices = indices.map f := by
  unfold takeIndices
  apply List.map_congr_left
  intro o _
  have h := (takeIndex_spec d.sortedIter (sorted_sortedIter d hd) o).1
  have he : (fun i => d.sortedIter.contains i) = d.contains := by
    funext i
    rw [Bool.eq_iff_iff]; simp [mem_sortedIter]
  rw [he] at h
  exact nthLive_unique _ h (hf o)

/-- C06: without a deletion file, live and physical row numbers agree. -/
theorem C06_take_without_deletions (indices : List Nat) : takeIndices none indices = indices := rfl

/-- C06: the physical row is at most the live row number plus the number of deletions. -/
theorem C06_take_bound (d : DV) (hd : d.WF) (o : Nat) : takeIndex d.sortedIter o ≤ o + d.len := by
  rw [← len_sortedIter d hd]
  exact (takeIndex_spec d.sortedIter (sorted_sortedIter d hd) o).2

example : takeIndices (some (.set [5, 3, 2])) [4, 0, 2] = [7, 0, 4] := by decide

/-! ### Range reads -/

theorem patchLoop_spec (vs : List Nat) (hs : vs.Pairwise (· < ·)) (s e : Nat) (hse : s ≤ e) :
    let r := patchLoop vs s e
    r.1 = s + vs.countP (fun x => decide (x < r.1)) ∧ r.1 ∉ vs ∧
    r.2 = e + vs.countP (fun x => decide (x < r.2)) ∧ r.1 ≤ r.2 ∧ e ≤ r.2 ∧
    (s < e → r.1 < r.2 ∧ r.2 - 1 ∉ vs) ∧
    ((∀ v ∈ vs, s < v) → r.1 = s) := by
  induction vs generalizing s e with
  | nil => simp [patchLoop, hse]
  | cons v vs ih =>
    have hs' := List.pairwise_cons.1 hs
    simp only [patchLoop]
    split
    · rename_i hv
      obtain ⟨h1, h2, h3, h4, h5, h6, h7⟩ := ih hs'.2 (s + 1) (e + 1) (by omega)
      have hv1 : v < (patchLoop vs (s + 1) (e + 1)).1 := by omega
      have hv2 : v < (patchLoop vs (s + 1) (e + 1)).2 := by omega
      simp only [List.countP_cons, hv1, hv2, decide_true, if_true]
      refine ⟨by omega, ?_, by omega, h4, by omega, ?_, ?_⟩
      · simp only [List.mem_cons, not_or]; exact ⟨by omega, h2⟩
      · intro hlt
        obtain ⟨h8, h9⟩ := h6 (by omega)
        refine ⟨h8, ?_⟩
        simp only [List.mem_cons, not_or]; exact ⟨by omega, h9⟩
      · intro hall
        have := hall v List.mem_cons_self; omega
    · rename_i hv
      have hallvs : ∀ x ∈ vs, s < x := fun x hx => by have := hs'.1 x hx; omega
      split
      · rename_i hve
        obtain ⟨h1, h2, h3, h4, h5, h6, h7⟩ := ih hs'.2 s (e + 1) (by omega)
        have hr1 := h7 hallvs
        have hv1 : ¬ v < (patchLoop vs s (e + 1)).1 := by omega
        have hv2 : v < (patchLoop vs s (e + 1)).2 := by omega
        simp only [List.countP_cons, hv1, hv2, decide_true, decide_false, if_true]
        refine ⟨by simpa using h1, ?_, by omega, h4, by omega, ?_, fun _ => hr1⟩
        · simp only [List.mem_cons, not_or]; exact ⟨by omega, h2⟩
        · intro _
          obtain ⟨h8, h9⟩ := h6 (by omega)
          refine ⟨h8, ?_⟩
          simp only [List.mem_cons, not_or]; exact ⟨by omega, h9⟩
      · rename_i hve
        have hall : ∀ x ∈ v :: vs, e ≤ x := by
          intro x hx
          rcases List.mem_cons.1 hx with h | h
          · subst h; omega
          · have := hs'.1 x h; omega
        have hz : ∀ b, b ≤ e → (v :: vs).countP (fun x => decide (x < b)) = 0 := by
          intro b hb
          rw [List.countP_eq_zero]
          intro x hx
          have := hall x hx
          simp; omega
        simp only [hz s hse, hz e (Nat.le_refl _)]
        refine ⟨by omega, ?_, by omega, hse, by omega, ?_, fun _ => trivial⟩
        · intro hx
          rcases List.mem_cons.1 hx with h | h
          · omega
          · have := hallvs s h; omega
        · intro hlt
          refine ⟨hlt, fun hx => ?_⟩
          have := hall _ hx; omega

/-- C06: the physical range read for the live rows `s..e` contains, among live rows, exactly those
numbered from `s` to `e`; it starts and ends at a live row, so it is the smallest such range. -/
theorem C06_range_read (d : DV) (hd : d.WF) (s e : Nat) (hse : s ≤ e) :
    (∀ a, d.contains a = false →
      (((patchRange d s e).1 ≤ a ∧ a < (patchRange d s e).2) ↔
        (s ≤ liveBelow d.contains a ∧ liveBelow d.contains a < e))) ∧
    (s < e → d.contains (patchRange d s e).1 = false ∧ d.contains ((patchRange d s e).2 - 1) = false) ∧
    (patchRange d s e).1 ≤ (patchRange d s e).2 := by
  have hsorted := sorted_sortedIter d hd
  obtain ⟨h1, h2, h3, h4, h5, h6, _⟩ := patchLoop_spec d.sortedIter hsorted s e hse
  have hc : ∀ b, d.sortedIter.countP (fun x => decide (x < b)) = countBelow d.contains b := by
    intro b
    rw [countP_lt _ (Sorted.nodup hsorted)]
    apply countBelow_congr
    intro i _
    rw [Bool.eq_iff_iff]; simp [mem_sortedIter]
  have hnot : ∀ x, x ∉ d.sortedIter → d.contains x = false := by
    intro x hx
    rw [mem_sortedIter] at hx
    simpa using hx
  change (patchRange d s e).1 = _ at h1
  change (patchRange d s e).2 = _ at h3
  change (patchRange d s e).1 ≤ (patchRange d s e).2 at h4
  rw [hc] at h1 h3
  have e1 := deleted_live d.contains (patchRange d s e).1
  have e2 := deleted_live d.contains (patchRange d s e).2
  refine ⟨?_, ?_, h4⟩
  · intro a ha
    have hsucc := liveBelow_succ d.contains a
    rw [ha] at hsucc; simp at hsucc
    constructor
    · rintro ⟨ha1, ha2⟩
      have m1 := liveBelow_mono d.contains ha1
      have m2 := liveBelow_mono d.contains (a := a + 1) (b := (patchRange d s e).2) ha2
      change (patchRange d s e).1 = s + countBelow d.contains (patchRange d s e).1 at h1
      change (patchRange d s e).2 = e + countBelow d.contains (patchRange d s e).2 at h3
      omega
    · rintro ⟨ha1, ha2⟩
      change (patchRange d s e).1 = s + countBelow d.contains (patchRange d s e).1 at h1
      change (patchRange d s e).2 = e + countBelow d.contains (patchRange d s e).2 at h3
      constructor
      · false_or_by_contra
        have m1 := liveBelow_mono d.contains (a := a + 1) (b := (patchRange d s e).1) (by omega)
        omega
      · false_or_by_contra
        have m2 := liveBelow_mono d.contains (a := (patchRange d s e).2) (b := a) (by omega)
        omega
  · intro hlt
    exact ⟨hnot _ h2, hnot _ (h6 hlt).2⟩

example : patchRange (.set [5, 0, 3]) 1 4 = (2, 7) := by decide

/-! ## C48 Delete removes exactly the matching rows -/

/-- Row `o` of fragment `f` is visible in a dataset with these fragments. -/
def Live (frags : List Frag) (f o : Nat) : Prop :=
  ∃ fr ∈ frags, fr.id = f ∧ o < fr.rows ∧ fr.dv.contains o = false

/-- Fragment ids are distinct and deletion vectors only mention rows of the fragment. -/
def FragsOk (frags : List Frag) : Prop :=
  (frags.map (·.id)).Nodup ∧ ∀ fr ∈ frags, fr.dv.WF ∧ ∀ o, fr.dv.contains o = true → o < fr.rows

theorem extendBatches_spec (d : DV) (hd : d.WF) (bs : List (List Nat)) :
    (extendBatches d bs).WF ∧ ∀ i, (extendBatches d bs).contains i = true ↔
      d.contains i = true ∨ i ∈ bs.flatten := by
  unfold extendBatches
  induction bs generalizing d with
  | nil => simp [hd]
  | cons b bs ih =>
    obtain ⟨h1, h2⟩ := ih (d.extend b.length (some b.length) b) (extend_wf d hd _ _ _)
    refine ⟨h1, fun i => ?_⟩
    simp only [List.foldl_cons, List.flatten_cons, List.mem_append]
    rw [h2, extend_contains d _ _ _ (by intro u hu; cases hu; exact Nat.le_refl _), or_assoc]

theorem mem_scanMatches (f : Frag) (p : Nat → Nat → Bool) (o : Nat) :
    o ∈ scanMatches f p ↔ o < f.rows ∧ f.dv.contains o = false ∧ p f.id o = true := by
  simp [scanMatches]

theorem len_eq_countBelow (d : DV) (hd : d.WF) (n : Nat) (hb : ∀ o, d.contains o = true → o < n) :
    d.len = countBelow d.contains n := by
  have hsorted := sorted_sortedIter d hd
  rw [← len_sortedIter d hd]
  have : countBelow d.contains n = countBelow (fun i => d.sortedIter.contains i) n := by
    apply countBelow_congr
    intro i _
    rw [Bool.eq_iff_iff]; simp [mem_sortedIter]
  rw [this, ← countP_lt _ (Sorted.nodup hsorted)]
  symm
  rw [List.countP_eq_length]
  intro x hx
  simpa using hb x ((mem_sortedIter d x).1 hx)

/-- What `delete` does to one fragment. -/
def FragDeleted (f : Frag) (m : Nat → Bool) : DelResult → Prop
  | .err => False
  | .gone => ∀ o, o < f.rows → f.dv.contains o = false → m o = true
  | .keep f' => f'.id = f.id ∧ f'.rows = f.rows ∧ f'.dv.WF ∧
      (∀ o, f'.dv.contains o = true ↔ f.dv.contains o = true ∨ (o < f.rows ∧ m o = true)) ∧
      (f' ≠ f → ∃ o, o < f.rows ∧ f'.dv.contains o = false)

theorem deleteFrag_spec (split : List Nat → List (List Nat)) (hsplit : ∀ l, (split l).flatten = l)
    (f : Frag) (hw : f.dv.WF) (hb : ∀ o, f.dv.contains o = true → o < f.rows) (p : Pred) :
    FragDeleted f (p.matches f.id) (deleteFrag split f p) ∧
    ((∀ o, o < f.rows → f.dv.contains o = false → p.matches f.id o = false) → p.matches f.id ≠ (fun _ => true) →
      deleteFrag split f p = .keep f) ∧
    ((∃ o, o < f.rows ∧ f.dv.contains o = false) →
      (∀ o, o < f.rows → f.dv.contains o = false → p.matches f.id o = true) →
      deleteFrag split f p = .gone) := by
  cases p with
  | always =>
    refine ⟨fun _ _ _ => rfl, ?_, fun _ _ => rfl⟩
    intro _ h; exact absurd rfl h
  | never =>
    refine ⟨⟨rfl, rfl, hw, fun o => by simp [Pred.matches], fun h => absurd rfl h⟩, fun _ _ => rfl, ?_⟩
    rintro ⟨o, h1, h2⟩ h
    exact absurd (h o h1 h2) (by simp [Pred.matches])
  | rows p =>
    simp only [deleteFrag, Pred.matches]
    obtain ⟨hw', hc⟩ := extendBatches_spec f.dv hw (split (scanMatches f p))
    rw [hsplit] at hc
    generalize extendBatches f.dv (split (scanMatches f p)) = d at hw' hc
    have hb' : ∀ o, d.contains o = true → o < f.rows := by
      intro o ho
      rcases (hc o).1 ho with h | h
      · exact hb o h
      · exact ((mem_scanMatches f p o).1 h).1
    have hl := len_eq_countBelow d hw' f.rows hb'
    have hl0 := len_eq_countBelow f.dv hw f.rows hb
    have hcr := C05_contains_range d hw' 0 f.rows
    have hcle := countBelow_le d.contains f.rows
    -- equal lengths mean that nothing matched
    have hsame : d.len = f.dv.len ↔ scanMatches f p = [] := by
      constructor
      · intro h
        rw [List.eq_nil_iff_forall_not_mem]
        intro o ho
        have hno : o ∉ f.dv.sortedIter := by
          rw [mem_sortedIter]; simp [((mem_scanMatches f p o).1 ho).2.1]
        have hnd : (o :: f.dv.sortedIter).Nodup :=
          List.nodup_cons.2 ⟨hno, Sorted.nodup (sorted_sortedIter f.dv hw)⟩
        have := nodup_length_le (t := d.sortedIter) hnd (by
          intro x hx
          rw [mem_sortedIter, hc]
          rcases List.mem_cons.1 hx with h | h
          · subst h; exact Or.inr ho
          · exact Or.inl ((mem_sortedIter _ _).1 h))
        rw [List.length_cons, len_sortedIter d hw', len_sortedIter f.dv hw] at this
        omega
      · intro h
        rw [hl, hl0]
        apply countBelow_congr
        intro i _
        rw [Bool.eq_iff_iff, hc, h]; simp
    have hdc : ∀ o, d.contains o = true ↔ f.dv.contains o = true ∨ (o < f.rows ∧ p f.id o = true) := by
      intro o
      rw [hc, mem_scanMatches]
      cases hdo : f.dv.contains o <;> simp
    by_cases hs : d.len = f.dv.len
    · rw [if_pos hs]
      have hnil := hsame.1 hs
      have hno : ∀ o, o < f.rows → f.dv.contains o = false → p f.id o = false := by
        intro o h1 h2
        cases hp : p f.id o
        · rfl
        · have : o ∈ scanMatches f p := (mem_scanMatches f p o).2 ⟨h1, h2, hp⟩
          rw [hnil] at this; simp at this
      refine ⟨⟨rfl, rfl, hw, ?_, fun h => absurd rfl h⟩, fun _ _ => rfl, ?_⟩
      · intro o
        show _ ↔ f.dv.contains o = true ∨ (o < f.rows ∧ p f.id o = true)
        rw [← hdc, hc, hnil]; simp
      · rintro ⟨o, h1, h2⟩ h
        have h3 := h o h1 h2
        rw [hno o h1 h2] at h3; simp at h3
    · rw [if_neg hs]
      have hne : scanMatches f p ≠ [] := fun h => hs (hsame.2 h)
      unfold writeDeletions
      by_cases hfull : d.len = f.rows
      · have hall := countBelow_full d.contains f.rows (by omega)
        have hcon : d.containsRange 0 f.rows = true := hcr.2 (fun i _ h => hall i h)
        rw [if_pos ⟨hfull, hcon⟩]
        refine ⟨?_, ?_, fun _ _ => rfl⟩
        · intro o h1 h2
          rcases (hdc o).1 (hall o h1) with h | h
          · rw [h2] at h; simp at h
          · exact h.2
        · intro h _
          obtain ⟨o, ho⟩ := List.exists_mem_of_ne_nil _ hne
          obtain ⟨h1, h2, h3⟩ := (mem_scanMatches f p o).1 ho
          rw [h o h1 h2] at h3; simp at h3
      · rw [if_neg (fun h => hfull h.1), if_neg (by omega)]
        have hex : ∃ o, o < f.rows ∧ d.contains o = false := by
          false_or_by_contra
          rename_i hn
          apply hfull
          rw [hl]
          have := countBelow_range_full' d.contains 0 f.rows (by
            intro i _ hi
            cases hdi : d.contains i
            · exact absurd ⟨i, by omega, hdi⟩ hn
            · rfl)
          simpa [countBelow] using this
        refine ⟨⟨rfl, rfl, hw', hdc, fun _ => hex⟩, ?_, ?_⟩
        · intro h _
          obtain ⟨o, ho⟩ := List.exists_mem_of_ne_nil _ hne
          obtain ⟨h1, h2, h3⟩ := (mem_scanMatches f p o).1 ho
          rw [h o h1 h2] at h3; simp at h3
        · rintro _ h
          obtain ⟨o, h1, h2⟩ := hex
          have : d.contains o = true := by
            rw [hdc]
            cases hdo : f.dv.contains o
            · exact Or.inr ⟨h1, h o h1 hdo⟩
            · exact Or.inl rfl
          rw [h2] at this; simp at this

theorem deleteCollect_spec (split : List Nat → List (List Nat)) (p : Pred) (frags : List Frag)
    (hne : ∀ fr ∈ frags, deleteFrag split fr p ≠ .err)
    (hid : ∀ fr ∈ frags, ∀ fr', deleteFrag split fr p = .keep fr' → fr'.id = fr.id) :
    ∃ up del, deleteCollect split p frags = some (up, del) ∧
      (∀ u, u ∈ up ↔ ∃ fr ∈ frags, deleteFrag split fr p = .keep u ∧ u ≠ fr) ∧
      (∀ i, i ∈ del ↔ ∃ fr ∈ frags, fr.id = i ∧ deleteFrag split fr p = .gone) := by
  induction frags with
  | nil => exact ⟨[], [], rfl, by simp, by simp⟩
  | cons f fs ih =>
    obtain ⟨up, del, h1, h2, h3⟩ := ih (fun fr h => hne fr (List.mem_cons_of_mem _ h))
      (fun fr h => hid fr (List.mem_cons_of_mem _ h))
    simp only [deleteCollect, h1]
    cases hf : deleteFrag split f p with
    | err => exact absurd hf (hne f List.mem_cons_self)
    | gone =>
      refine ⟨up, f.id :: del, rfl, ?_, ?_⟩
      · intro u; rw [h2]; simp [hf]
      · intro i; simp only [List.mem_cons, h3, exists_eq_or_imp, hf, and_true]
        constructor
        · rintro (h | h)
          · exact Or.inl h.symm
          · exact Or.inr h
        · rintro (h | h)
          · exact Or.inl h.symm
          · exact Or.inr h
    | keep f' =>
      by_cases he : f' = f
      · refine ⟨up, del, by simp [he], ?_, ?_⟩
        · intro u; rw [h2]; simp only [List.mem_cons, exists_eq_or_imp, hf, DelResult.keep.injEq]
          constructor
          · exact Or.inr
          · rintro (⟨h, h'⟩ | h)
            · exact absurd (h ▸ he) h'
            · exact h
        · intro i; rw [h3]; simp [hf]
      · refine ⟨f' :: up, del, by simp [he], ?_, ?_⟩
        · intro u
          simp only [List.mem_cons, h2, exists_eq_or_imp, hf, DelResult.keep.injEq]
          constructor
          · rintro (h | h)
            · exact Or.inl ⟨h.symm, h ▸ he⟩
            · exact Or.inr h
          · rintro (h | h)
            · exact Or.inl h.1.symm
            · exact Or.inr h
        · intro i; rw [h3]; simp [hf]

theorem applyUpdates_none (us : List Frag) (f : Frag) (h : ∀ u ∈ us, u.id ≠ f.id) : applyUpdates us f = f := by
  unfold applyUpdates
  induction us with
  | nil => rfl
  | cons u us ih =>
    simp only [List.foldl_cons, if_neg (h u List.mem_cons_self)]
    exact ih (fun v hv => h v (List.mem_cons_of_mem _ hv))

theorem applyUpdates_keep (us : List Frag) (f g : Frag) (h : ∀ u ∈ us, u.id = g.id → u = g)
    (hf : f = g ∨ (f.id = g.id ∧ g ∈ us)) : applyUpdates us f = g := by
  unfold applyUpdates
  induction us generalizing f with
  | nil => rcases hf with h | h
           · exact h
           · simp at h
  | cons u us ih =>
    simp only [List.foldl_cons]
    apply ih
    · exact fun v hv => h v (List.mem_cons_of_mem _ hv)
    · rcases hf with rfl | ⟨h1, h2⟩
      · left
        split
        · rename_i hu; exact h u List.mem_cons_self hu
        · rfl
      · split
        · rename_i hu; left; exact h u List.mem_cons_self (hu.trans h1)
        · rename_i hu
          right
          rcases List.mem_cons.1 h2 with h | h
          · subst h; exact absurd h1.symm hu
          · exact ⟨h1, h⟩

/-- The fragment that replaces `f` after a delete, if any. -/
def survivor (split : List Nat → List (List Nat)) (p : Pred) (f : Frag) : Option Frag :=
  match deleteFrag split f p with
  | .keep f' => some f'
  | _ => none

theorem ids_inj {frags : List Frag} (h : (frags.map (·.id)).Nodup) {a b : Frag} (ha : a ∈ frags)
    (hb : b ∈ frags) (hid : a.id = b.id) : a = b := by
  induction frags with
  | nil => simp at ha
  | cons x xs ih =>
    simp only [List.map_cons, List.nodup_cons, List.mem_map, not_exists, not_and] at h
    rcases List.mem_cons.1 ha with ha' | ha'
    · rcases List.mem_cons.1 hb with hb' | hb'
      · rw [ha', hb']
      · exact absurd hid.symm (ha' ▸ h.1 b hb')
    · rcases List.mem_cons.1 hb with hb' | hb'
      · exact absurd hid (hb' ▸ h.1 a ha')
      · exact ih h.2 ha' hb'

theorem deleteDataset_eq (split : List Nat → List (List Nat)) (hsplit : ∀ l, (split l).flatten = l)
    (p : Pred) (frags : List Frag) (hok : FragsOk frags) :
    deleteDataset split p frags = some (frags.filterMap (survivor split p)) := by
  have hspec := fun fr (h : fr ∈ frags) =>
    deleteFrag_spec split hsplit fr (hok.2 fr h).1 (hok.2 fr h).2 p
  have hne : ∀ fr ∈ frags, deleteFrag split fr p ≠ .err := by
    intro fr h he
    have := (hspec fr h).1
    rw [he] at this; exact this
  have hid : ∀ fr ∈ frags, ∀ fr', deleteFrag split fr p = .keep fr' → fr'.id = fr.id := by
    intro fr h fr' he
    have := (hspec fr h).1
    rw [he] at this; exact this.1
  obtain ⟨up, del, h1, h2, h3⟩ := deleteCollect_spec split p frags hne hid
  unfold deleteDataset
  rw [h1]
  simp only [Option.map_some, Option.some.injEq]
  unfold applyDelete
  have hupd : ∀ f ∈ frags, ∀ f', deleteFrag split f p = .keep f' → applyUpdates up f = f' := by
    intro f hf f' hk
    have hfid := hid f hf f' hk
    by_cases he : f' = f
    · subst he
      apply applyUpdates_none
      intro u hu huid
      obtain ⟨fr, hfr, hfk, hune⟩ := (h2 u).1 hu
      have hfrid := hid fr hfr u hfk
      have : fr = f' := ids_inj hok.1 hfr hf (by omega)
      subst this
      rw [hk] at hfk
      exact hune (by cases hfk; rfl)
    · apply applyUpdates_keep
      · intro u hu huid
        obtain ⟨fr, hfr, hfk, _⟩ := (h2 u).1 hu
        have hfrid := hid fr hfr u hfk
        have : fr = f := ids_inj hok.1 hfr hf (by omega)
        subst this
        rw [hk] at hfk; cases hfk; rfl
      · exact Or.inr ⟨hfid.symm, (h2 f').2 ⟨f, hf, hk, he⟩⟩
  have hdel : ∀ f ∈ frags, (f.id ∈ del ↔ deleteFrag split f p = .gone) := by
    intro f hf
    rw [h3]
    constructor
    · rintro ⟨fr, hfr, hi, hg⟩
      have : fr = f := ids_inj hok.1 hfr hf hi
      subst this; exact hg
    · intro hg; exact ⟨f, hf, rfl, hg⟩
  clear h1 h2 h3 hspec hok
  induction frags with
  | nil => rfl
  | cons f fs ih =>
    have ih' := ih (fun fr h => hne fr (List.mem_cons_of_mem _ h)) (fun fr h => hid fr (List.mem_cons_of_mem _ h))
      (fun fr h => hupd fr (List.mem_cons_of_mem _ h)) (fun fr h => hdel fr (List.mem_cons_of_mem _ h))
    cases hf : deleteFrag split f p with
    | err => exact absurd hf (hne f List.mem_cons_self)
    | gone =>
      have := (hdel f List.mem_cons_self).2 hf
      simp only [List.filter_cons, List.contains_iff_mem.2 this, Bool.not_true, Bool.false_eq_true, if_false,
        List.filterMap_cons, survivor, hf]
      exact ih'
    | keep f' =>
      have hnd : f.id ∉ del := by
        intro h
        rw [(hdel f List.mem_cons_self).1 h] at hf; cases hf
      have hc : del.contains f.id = false := by simpa using hnd
      simp only [List.filter_cons, hc, Bool.not_false, if_true, List.map_cons,
        List.filterMap_cons, survivor, hf]
      rw [hupd f List.mem_cons_self f' hf]
      exact congrArg _ ih'

/-- C48: deleting by predicate succeeds, and afterwards a row is visible exactly when it was visible
and did not match; however the scan output is cut into batches. -/
theorem C48_delete_exact (split : List Nat → List (List Nat)) (hsplit : ∀ l, (split l).flatten = l)
    (p : Pred) (frags : List Frag) (hok : FragsOk frags) :
    ∃ out, deleteDataset split p frags = some out ∧
      (∀ f o, Live out f o ↔ Live frags f o ∧ p.matches f o = false) ∧ FragsOk out := by
  refine ⟨_, deleteDataset_eq split hsplit p frags hok, ?_, ?_, ?_⟩
  · intro f o
    constructor
    · rintro ⟨fr', hfr', h1, h2, h3⟩
      obtain ⟨fr, hfr, hsv⟩ := List.mem_filterMap.1 hfr'
      have hs := (deleteFrag_spec split hsplit fr (hok.2 fr hfr).1 (hok.2 fr hfr).2 p).1
      unfold survivor at hsv
      cases hd : deleteFrag split fr p with
      | err => rw [hd] at hsv; cases hsv
      | gone => rw [hd] at hsv; cases hsv
      | keep g =>
        rw [hd] at hsv hs; cases hsv
        obtain ⟨a1, a2, a3, a4, a5⟩ := hs
        have hn : ¬ (fr.dv.contains o = true ∨ (o < fr.rows ∧ p.matches fr.id o = true)) := by
          rw [← a4, h3]; simp
        simp only [not_or, not_and, Bool.not_eq_true] at hn
        exact ⟨⟨fr, hfr, by omega, by omega, hn.1⟩, by rw [← h1, a1]; exact hn.2 (by omega)⟩
    · rintro ⟨⟨fr, hfr, h1, h2, h3⟩, hm⟩
      have hs := (deleteFrag_spec split hsplit fr (hok.2 fr hfr).1 (hok.2 fr hfr).2 p).1
      subst h1
      cases hd : deleteFrag split fr p with
      | err => rw [hd] at hs; exact absurd hs id
      | gone => rw [hd] at hs; rw [hs o h2 h3] at hm; cases hm
      | keep g =>
        rw [hd] at hs
        obtain ⟨a1, a2, a3, a4, a5⟩ := hs
        refine ⟨g, List.mem_filterMap.2 ⟨fr, hfr, by simp [survivor, hd]⟩, a1, by omega, ?_⟩
        have : ¬ g.dv.contains o = true := by rw [a4, h3, hm]; simp
        simpa using this
  · -- ids stay distinct
    have hsub : ((frags.filterMap (survivor split p)).map (·.id)).Sublist (frags.map (·.id)) := by
      have hids : ∀ fr ∈ frags, ∀ g, survivor split p fr = some g → g.id = fr.id := by
        intro fr hfr g hg
        have hs := (deleteFrag_spec split hsplit fr (hok.2 fr hfr).1 (hok.2 fr hfr).2 p).1
        unfold survivor at hg
        cases hd : deleteFrag split fr p with
        | err => rw [hd] at hg; cases hg
        | gone => rw [hd] at hg; cases hg
        | keep k => rw [hd] at hg hs; cases hg; exact hs.1
      clear hok
      induction frags with
      | nil => simp
      | cons f fs ih =>
        have ih' := ih (fun fr h => hids fr (List.mem_cons_of_mem _ h))
        simp only [List.filterMap_cons]
        cases hsv : survivor split p f with
        | none => simp only [List.map_cons]; exact List.Sublist.cons _ ih'
        | some g =>
          simp only [List.map_cons, hids f List.mem_cons_self g hsv]
          exact List.Sublist.cons_cons _ ih'
    exact List.Nodup.sublist hsub hok.1
  · intro fr' hfr'
    obtain ⟨fr, hfr, hsv⟩ := List.mem_filterMap.1 hfr'
    have hs := (deleteFrag_spec split hsplit fr (hok.2 fr hfr).1 (hok.2 fr hfr).2 p).1
    unfold survivor at hsv
    cases hd : deleteFrag split fr p with
    | err => rw [hd] at hsv; cases hsv
    | gone => rw [hd] at hsv; cases hsv
    | keep g =>
      rw [hd] at hsv hs; cases hsv
      obtain ⟨a1, a2, a3, a4, a5⟩ := hs
      refine ⟨a3, fun o ho => ?_⟩
      rcases (a4 o).1 ho with h | h
      · have := (hok.2 fr hfr).2 o h; omega
      · omega

/-- C48: a fragment without matching live row is kept as it is (no new deletion file); a fragment
whose live rows all match disappears. -/
theorem C48_untouched_and_dropped (split : List Nat → List (List Nat)) (hsplit : ∀ l, (split l).flatten = l)
    (p : Pred) (hp : ∀ f, p.matches f ≠ (fun _ => true)) (frags : List Frag) (hok : FragsOk frags)
    (out : List Frag) (h : deleteDataset split p frags = some out) (fr : Frag) (hfr : fr ∈ frags) :
    ((∀ o, o < fr.rows → fr.dv.contains o = false → p.matches fr.id o = false) → fr ∈ out) ∧
    ((∃ o, o < fr.rows ∧ fr.dv.contains o = false) →
      (∀ o, o < fr.rows → fr.dv.contains o = false → p.matches fr.id o = true) →
      ∀ g ∈ out, g.id ≠ fr.id) := by
  rw [deleteDataset_eq split hsplit p frags hok] at h
  cases h
  have hs := deleteFrag_spec split hsplit fr (hok.2 fr hfr).1 (hok.2 fr hfr).2 p
  constructor
  · intro hn
    exact List.mem_filterMap.2 ⟨fr, hfr, by simp [survivor, hs.2.1 hn (hp _)]⟩
  · intro hex hall g hg hid
    obtain ⟨fr2, hfr2, hsv⟩ := List.mem_filterMap.1 hg
    have hs2 := (deleteFrag_spec split hsplit fr2 (hok.2 fr2 hfr2).1 (hok.2 fr2 hfr2).2 p).1
    unfold survivor at hsv
    cases hd : deleteFrag split fr2 p with
    | err => rw [hd] at hsv; cases hsv
    | gone => rw [hd] at hsv; cases hsv
    | keep k =>
      rw [hd] at hsv hs2; cases hsv
      have : fr2 = fr := ids_inj hok.1 hfr2 hfr (by have := hs2.1; omega)
      subst this
      rw [hs.2.2 hex hall] at hd; cases hd

example : deleteDataset (fun l => [l]) (.rows (fun _ o => o % 2 = 0))
    [⟨0, 4, .none⟩, ⟨1, 1, .none⟩, ⟨5, 4, .set [0, 2]⟩] =
    some [⟨0, 4, .set [2, 0]⟩, ⟨5, 4, .set [0, 2]⟩] := by decide

end Verif.Deletion
