import Verif.Sampler.PropsShard

/-!
# C40: the sharded batch sampler with a filter
-/
namespace Verif.Sampler
open Verif

variable {α : Type}

theorem nth_drop (size skip : Nat) (l : List α) : nth size 0 (l.drop skip) = nth size skip l := by
  induction skip generalizing l with
  | zero => rfl
  | succ s ih => cases l with
    | nil => rfl
    | cons a l => exact ih l

theorem nth_short (size skip : Nat) (l : List α) (h : l.length ≤ skip) : nth size skip l = [] := by
  rw [← nth_drop, List.drop_eq_nil_iff.mpr h]
  rfl

theorem shardStep_spec (strict : Bool) (size skip : Nat) (hk : skip < size) (b : List α) :
    (shardStep strict size skip b = none ↔ b.length < skip ∧ strict = true) ∧
    ∀ r, shardStep strict size skip b = some r → r = (nth size skip b, after size skip b.length) := by
  have hs : 0 < size := by omega
  unfold shardStep
  simp only
  constructor
  · split
    · rename_i h; simp; exact ⟨by omega, h.2⟩
    · rename_i h
      constructor
      · intro h1; cases h1
      · intro h1; exact absurd ⟨by omega, h1.2⟩ h
  · intro r hr
    split at hr
    · cases hr
    · cases hr
      congr 1
      · have e : (((b.length : Int) - skip).toNat) = (b.drop skip).length := by
          rw [List.length_drop]; omega
        rw [e, nth_eq size hs, nth_drop]
      · unfold after
        split
        · rename_i hle
          by_cases he : b.length = skip
          · rw [he, Int.sub_self, Int.zero_emod, Int.sub_zero, Int.emod_self]; omega
          · have e : ((b.length : Int) - skip) % size = (size : Int) - ((skip - b.length : Nat) : Int) := by
              rw [show ((b.length : Int) - skip) = ((size : Int) - ((skip - b.length : Nat) : Int)) + size * (-1) by omega,
                Int.add_mul_emod_self_left, Int.emod_eq_of_lt (by omega) (by omega)]
            rw [e, show (size : Int) - ((size : Int) - ((skip - b.length : Nat) : Int)) = ((skip - b.length : Nat) : Int) by omega,
              Int.emod_eq_of_lt (by omega) (by omega)]
            exact Int.toNat_natCast _
        · rename_i hgt
          rw [show ((b.length : Int) - skip) = ((b.length - skip : Nat) : Int) by omega, ← Int.natCast_emod,
            show (size : Int) - (((b.length - skip) % size : Nat) : Int) = ((size - (b.length - skip) % size : Nat) : Int) by
              have := Nat.mod_lt (b.length - skip) hs; omega,
            ← Int.natCast_emod]
          exact Int.toNat_natCast _

theorem cut_spec (bs : Nat) (hb : 0 < bs) (fuel : Nat) (l : List α) (hf : l.length ≤ fuel) :
    (cut bs fuel l).1.flatten ++ (cut bs fuel l).2 = l ∧ (∀ b ∈ (cut bs fuel l).1, b.length = bs) ∧
    (cut bs fuel l).2.length ≤ bs ∧ (l ≠ [] → (cut bs fuel l).2 ≠ []) := by
  induction fuel generalizing l with
  | zero =>
    have : l = [] := List.length_eq_zero_iff.mp (by omega)
    subst this
    exact ⟨rfl, by intro b h; (cases h), Nat.zero_le _, by simp⟩
  | succ fuel ih =>
    unfold cut
    split
    · rename_i hgt
      obtain ⟨h1, h2, h3, h4⟩ := ih (l.drop bs) (by rw [List.length_drop]; omega)
      simp only
      refine ⟨?_, ?_, h3, ?_⟩
      · rw [List.flatten_cons, List.append_assoc, h1, List.take_append_drop]
      · intro b hmem
        rcases List.mem_cons.mp hmem with e | h
        · rw [e, List.length_take]; omega
        · exact h2 b h
      · intro _
        apply h4
        intro e
        have := congrArg List.length e
        rw [List.length_drop, List.length_nil] at this
        omega
    · exact ⟨rfl, by intro b h; (cases h), by show l.length ≤ bs; omega, fun h => h⟩

/-- Full batches, then one that is not empty and not too long. -/
def Batched (bs : Nat) (out : List (List α)) : Prop :=
  ∃ full last, out = full ++ [last] ∧ (∀ b ∈ full, b.length = bs) ∧ last ≠ [] ∧ last.length ≤ bs

theorem shardScan_spec (strict : Bool) (size bs : Nat) (hb : 0 < bs) (skip : Nat) (hk : skip < size) (acc : List α)
    (ha : acc.length ≤ bs) (batches : List (List α)) :
    (∀ out, shardScan strict size bs skip acc batches = some out →
      out.flatten = acc ++ nth size skip batches.flatten ∧ Batched bs out) ∧
    (shardScan strict size bs skip acc batches = none →
      (strict = true ∧ ∃ b ∈ batches, b.length + 1 < size) ∨ acc ++ nth size skip batches.flatten = []) := by
  have hs : 0 < size := by omega
  induction batches generalizing skip acc with
  | nil =>
    unfold shardScan
    have e : nth size skip ([] : List (List α)).flatten = [] := by cases skip <;> rfl
    rw [e, List.append_nil]
    split
    · rename_i h
      exact ⟨by intro out ho; (cases ho), fun _ => Or.inr h⟩
    · rename_i h
      constructor
      · intro out ho
        cases ho
        exact ⟨by simp, [], acc, rfl, by intro b h; (cases h), h, ha⟩
      · intro ho; cases ho
  | cons b rest ih =>
    obtain ⟨s1, s2⟩ := shardStep_spec strict size skip hk b
    unfold shardScan
    cases hst : shardStep strict size skip b with
    | none =>
      have := s1.mp hst
      refine ⟨by intro out ho; (cases ho), fun _ => Or.inl ⟨this.2, b, List.mem_cons_self, by omega⟩⟩
    | some r =>
      have hr := s2 r hst
      subst hr
      simp only
      have hflat : acc ++ nth size skip (b :: rest).flatten =
          (acc ++ nth size skip b) ++ nth size (after size skip b.length) rest.flatten := by
        rw [List.flatten_cons, nth_append size hs skip hk, List.append_assoc]
      rw [hflat]
      have hk' := after_lt size skip b.length hs hk
      split
      · rename_i hgt
        obtain ⟨c1, c2, c3, c4⟩ := cut_spec bs hb (acc ++ nth size skip b).length (acc ++ nth size skip b) (Nat.le_refl _)
        obtain ⟨i1, i2⟩ := ih (after size skip b.length) hk' _ c3
        constructor
        · intro out ho
          obtain ⟨o, ho1, rfl⟩ := Option.map_eq_some_iff.mp ho
          obtain ⟨f1, full, last, e, f2, f3, f4⟩ := i1 o ho1
          refine ⟨?_, (cut bs (acc ++ nth size skip b).length (acc ++ nth size skip b)).1 ++ full, last, by rw [e, List.append_assoc], ?_, f3, f4⟩
          · rw [List.flatten_append, f1, ← List.append_assoc, c1]
          · intro x hx
            rcases List.mem_append.mp hx with h | h
            · exact c2 x h
            · exact f2 x h
        · intro ho
          rcases i2 (Option.map_eq_none_iff.mp ho) with ⟨h1, x, hx, h2⟩ | h
          · exact Or.inl ⟨h1, x, List.mem_cons_of_mem _ hx, h2⟩
          · exfalso
            have h3 := (List.append_eq_nil_iff.mp h).1
            refine c4 ?_ h3
            intro e
            rw [e] at hgt
            simp at hgt
      · rename_i hle
        obtain ⟨i1, i2⟩ := ih (after size skip b.length) hk' (acc ++ nth size skip b) (by omega)
        refine ⟨i1, ?_⟩
        intro ho
        rcases i2 ho with ⟨h1, x, hx, h2⟩ | h
        · exact Or.inl ⟨h1, x, List.mem_cons_of_mem _ hx, h2⟩
        · exact Or.inr h

theorem reservoirShuffle_perm {β : Type} (H : Heap β) (k : Nat) (prio : List Nat) (h : List (Nat × β)) (bs : List β) :
    (reservoirShuffle H k prio h bs).Perm (h.map (·.2) ++ bs) := by
  induction bs generalizing prio h with
  | nil => simp [reservoirShuffle]
  | cons b bs ih =>
    unfold reservoirShuffle
    simp only
    split
    · refine (ih _ _).trans ?_
      refine List.Perm.trans (List.Perm.append_right _ ((H.push_perm h _).map _)) ?_
      simp only [List.map_cons, List.cons_append]
      exact (List.perm_middle).symm
    · refine List.Perm.trans (List.Perm.cons _ (ih _ _)) ?_
      have := ((H.pushpop_perm h (prio.headD 0, b)).map (·.2)).append_right bs
      simp only [List.map_cons, List.cons_append] at this
      exact this.trans (List.perm_middle).symm

/-- C40 for filtered samples, in full: whatever batches the scan delivers, every rank succeeds and together they
yield every row of the scan once. -/
def C40_filtered_statement : Prop :=
  ∀ (strict : Bool) (H : Heap (List Nat)) (randomize : Bool) (prio : Nat → List Nat) (size bs : Nat)
    (batches : List (List Nat)), 0 < size → 0 < bs →
    ∃ out : Nat → List (List Nat),
      (∀ rank, rank < size → sampleFiltered strict H randomize (prio rank) size bs rank batches = some (out rank)) ∧
      ((List.range size).flatMap (fun rank => (out rank).flatten)).Perm batches.flatten

/-- A heap, for examples: the entries in order of priority. -/
def listHeap (β : Type) : Heap β where
  push h x := sortBy (·.1) (x :: h)
  pushpop h x := ((sortBy (·.1) (x :: h)).headD x, (sortBy (·.1) (x :: h)).tail)
  push_perm h x := sortBy_perm _ _
  pushpop_perm h x := by
    have hp := sortBy_perm (fun e : Nat × β => e.1) (x :: h)
    cases hc : sortBy (fun e : Nat × β => e.1) (x :: h) with
    | nil => rw [hc] at hp; exact absurd hp.length_eq (by simp)
    | cons a l => rw [hc] at hp; exact hp
  pushpop_min h x y hy := by
    have hp := sortBy_perm (fun e : Nat × β => e.1) (x :: h)
    have hs := sortBy_sorted (fun e : Nat × β => e.1) (x :: h)
    have hm := hp.mem_iff.mpr hy
    cases hc : sortBy (fun e : Nat × β => e.1) (x :: h) with
    | nil => rw [hc] at hm; cases hm
    | cons a l =>
      rw [hc] at hm hs
      show a.1 ≤ y.1
      rcases List.mem_cons.mp hm with e | e
      · rw [e]; exact Nat.le_refl _
      · exact (List.pairwise_cons.mp hs).1 y e

/-- One row for two ranks: the second rank raises an exception. -/
theorem C40_filtered_violated : ¬ C40_filtered_statement := by
  intro h
  obtain ⟨out, h1, _⟩ := h false (listHeap _) false (fun _ => []) 2 10 [[7]] (by decide) (by decide)
  have := h1 1 (by decide)
  have e : sampleFiltered false (listHeap _) false [] 2 10 1 [[7]] = none := by decide
  rw [e] at this
  cases this

/-- If the Arrow library refuses slices of negative length, a short batch is enough to fail. -/
theorem C40_short_batch_fails :
    sampleFiltered true (listHeap _) false [] 3 10 2 [[7], [8, 9, 10, 11]] = none := by decide

/-- **C40 (rows, filter; partial).** The ranks that return have full batches up to the last.  If all return, they have
every row of the filtered scan once, whatever its batches and the random numbers.  All return if there are as many
matching rows as ranks, and (if negative slices are refused) every batch of the scan has at least as many rows as
there are ranks, less one.  Missing for the full claim: fewer rows than ranks, short batches. -/
theorem C40_filtered_partial (strict : Bool) (H : Heap (List α)) (randomize : Bool) (prio : Nat → List Nat)
    (size bs : Nat) (batches : List (List α)) (hs : 0 < size) (hb : 0 < bs) :
    (∀ rank out, rank < size → sampleFiltered strict H randomize (prio rank) size bs rank batches = some out →
      ∃ o, out.Perm o ∧ Batched bs o) ∧
    (∀ out : Nat → List (List α),
      (∀ rank, rank < size → sampleFiltered strict H randomize (prio rank) size bs rank batches = some (out rank)) →
      ((List.range size).flatMap (fun rank => (out rank).flatten)).Perm batches.flatten) ∧
    (size ≤ batches.flatten.length → (strict = true → ∀ b ∈ batches, size ≤ b.length + 1) →
      ∀ rank, rank < size → ∃ out, sampleFiltered strict H randomize (prio rank) size bs rank batches = some out) := by
  have key : ∀ rank out, rank < size → sampleFiltered strict H randomize (prio rank) size bs rank batches = some out →
      out.flatten.Perm (nth size rank batches.flatten) ∧ ∃ o, out.Perm o ∧ Batched bs o := by
    intro rank out hr ho
    obtain ⟨o, h1, h2⟩ := Option.map_eq_some_iff.mp ho
    obtain ⟨f1, f2⟩ := (shardScan_spec strict size bs hb rank hr [] (Nat.zero_le _) batches).1 o h1
    rw [List.nil_append] at f1
    have hp : out.Perm o := by
      rw [← h2]
      split
      · exact reservoirShuffle_perm H 256 (prio rank) [] o
      · exact List.Perm.refl _
    exact ⟨by rw [← f1]; exact hp.flatten, o, hp, f2⟩
  refine ⟨fun rank out hr ho => (key rank out hr ho).2, ?_, ?_⟩
  · intro out hout
    have h1 : ∀ l : List Nat, (∀ r ∈ l, r < size) → (l.flatMap (fun rank => (out rank).flatten)).Perm
        (l.flatMap (fun rank => (pyRange rank batches.flatten.length size).filterMap (fun i => batches.flatten[i]?))) := by
      intro l
      induction l with
      | nil => intro _; exact List.Perm.refl _
      | cons a l ih =>
        intro hl
        rw [List.flatMap_cons, List.flatMap_cons, nth_eq size hs]
        have ha := hl a List.mem_cons_self
        exact (key a _ ha (hout a ha)).1.append (ih (fun r hr => hl r (List.mem_cons_of_mem _ hr)))
    refine (h1 _ (fun r hr => List.mem_range.mp hr)).trans ?_
    exact C40_fragments false id (fun l => List.Perm.refl _) batches.flatten size hs
  · intro hlen hshort rank hr
    cases ho : sampleFiltered strict H randomize (prio rank) size bs rank batches with
    | some out => exact ⟨out, rfl⟩
    | none =>
      exfalso
      have h1 := Option.map_eq_none_iff.mp ho
      rcases (shardScan_spec strict size bs hb rank hr [] (Nat.zero_le _) batches).2 h1 with ⟨h2, b, hb', h3⟩ | h
      · have := hshort h2 b hb'
        omega
      · rw [List.nil_append, ← nth_eq size hs, pyRange_step _ _ _ (by omega) hs, List.filterMap_cons] at h
        have : rank < batches.flatten.length := by omega
        rw [List.getElem?_eq_getElem this] at h
        cases h

example : (List.range 3).map (fun r => sampleFiltered true (listHeap _) false [] 3 2 r
      [[1, 2, 3, 4], [5, 6], [7, 8, 9, 10, 11, 12, 13]]) =
    [some [[1, 4], [7, 10], [13]], some [[2, 5], [8, 11]], some [[3, 6], [9, 12]]] := by decide
example : sampleFiltered true (listHeap _) true [5, 1, 3] 3 2 0 [[1, 2, 3, 4], [5, 6], [7, 8, 9, 10, 11, 12, 13]] =
    some [[7, 10], [13], [1, 4]] := by decide +kernel

end Verif.Sampler
