import Verif.Sampler.PropsFiltered

/-!
# C41: random samples
-/
namespace Verif.Sampler
open Verif

/-- Positions of the rows that pass the filter. -/
def matching (total : Nat) (filt : Option (Nat → Bool)) : List Nat :=
  (List.range total).filter (fun i => match filt with | none => true | some p => p i)

/-- C41 in full: a sample of `n` rows has `n` different rows that pass the filter, or all of them if there are
fewer. -/
def C41_statement : Prop :=
  ∀ (D : Dice) (scan : List Nat → List (List Nat)) (total n bs maxTakes : Nat) (filt : Option (Nat → Bool)),
    (∀ l, (scan l).flatten = l) → 0 < bs → 0 < maxTakes →
    ∃ out, maybeSample D scan total n bs maxTakes filt = some out ∧ out.flatten.Nodup ∧
      (∀ p ∈ out.flatten, p ∈ matching total filt) ∧ out.flatten.length = min n (matching total filt).length

/-- Dice, for examples. -/
def dice : Dice where
  choice _ n := List.range n
  randint _ _ := 0
  shuffle l := l
  choice_len := by intro t n _; simp
  choice_nodup := by intro t n _; exact List.nodup_range
  choice_lt := by intro t n h i hi; have := List.mem_range.mp hi; omega
  randint_lt := by intro _ _ h; exact h
  shuffle_perm := by intro l; exact List.Perm.refl _

/-- 3 of 100 rows in at most 2 takes: only 2 rows are returned. -/
theorem C41_too_few_violated : ¬ C41_statement := by
  intro h
  obtain ⟨out, h1, _, _, h2⟩ := h dice Take.one 100 3 10 2 none Take.one_splits (by decide) (by decide)
  have e : maybeSample dice Take.one 100 3 10 2 none = some [[0, 50]] := by decide +kernel
  rw [e] at h1
  cases h1
  revert h2
  decide +kernel

/-- 25 of 39 rows in at most 10 takes: 26 rows are returned. -/
theorem C41_too_many_violated : ¬ C41_statement := by
  intro h
  obtain ⟨out, h1, _, _, h2⟩ := h dice Take.one 39 25 100 10 none Take.one_splits (by decide) (by decide)
  have e : (maybeSample dice Take.one 39 25 100 10 none).map (fun o => o.flatten.length) = some 26 := by decide +kernel
  rw [h1] at e
  simp only [Option.map_some, Option.some.injEq] at e
  rw [e] at h2
  revert h2
  decide +kernel

/-- 12 of 20 rows that all pass the filter, in batches of 10: the last two rows read are never yielded. -/
theorem C41_leftover_violated : ¬ C41_statement := by
  intro h
  obtain ⟨out, h1, _, _, h2⟩ := h dice Take.one 20 12 10 3 (some (fun _ => true)) Take.one_splits (by decide) (by decide)
  have e : (maybeSample dice Take.one 20 12 10 3 (some (fun _ => true))).map (fun o => o.flatten.length) = some 10 := by
    decide +kernel
  rw [h1] at e
  simp only [Option.map_some, Option.some.injEq] at e
  rw [e] at h2
  revert h2
  decide +kernel

/-- 12 of 20 rows, 11 of them pass the filter: none of them is yielded. -/
theorem C41_nothing_violated : ¬ C41_statement := by
  intro h
  obtain ⟨out, h1, _, _, h2⟩ := h dice Take.one 20 12 100 3 (some (fun i => decide (i < 11))) Take.one_splits (by decide) (by decide)
  have e : maybeSample dice Take.one 20 12 100 3 (some (fun i => decide (i < 11))) = some [] := by decide +kernel
  rw [e] at h1
  cases h1
  revert h2
  decide +kernel

/-- A sample of no rows with a filter divides by zero. -/
theorem C41_zero_violated : ¬ C41_statement := by
  intro h
  obtain ⟨out, h1, _⟩ := h dice Take.one 20 0 100 3 (some (fun _ => true)) Take.one_splits (by decide) (by decide)
  have e : maybeSample dice Take.one 20 0 100 3 (some (fun _ => true)) = none := by decide +kernel
  rw [e] at h1
  cases h1

/-! ## The unfiltered sample in blocks -/

theorem bufferTakes_flatten {β : Type} (bs : Nat) (buf : List β) (ts : List (List β)) :
    (bufferTakes bs buf ts).flatten = buf ++ ts.flatten := by
  induction ts generalizing buf with
  | nil => unfold bufferTakes; split <;> simp_all
  | cons t ts ih =>
    unfold bufferTakes
    split
    · rw [List.flatten_cons, ih]; simp
    · rw [ih]; simp

theorem effLoop_within (total n chunk sample : Nat) (rnd : Nat → Nat → Nat)
    (hr : ∀ idx size, 0 < size → rnd idx size < size) (idx sampled : Nat) (is : List Nat)
    (hp : is.Pairwise (fun a b => a + chunk ≤ b)) :
    (effLoop total n chunk sample rnd idx sampled is).flatten.Pairwise (· < ·) ∧
    ∀ p ∈ (effLoop total n chunk sample rnd idx sampled is).flatten, p < total ∧ ∃ i ∈ is, i ≤ p ∧ p < i + chunk := by
  induction is generalizing idx sampled with
  | nil => exact ⟨List.Pairwise.nil, by intro p h; cases h⟩
  | cons i is ih =>
    rw [List.pairwise_cons] at hp
    obtain ⟨i1, i2⟩ := ih (idx + 1) (sampled + sample) hp.2
    unfold effLoop
    split
    · exact ⟨List.Pairwise.nil, by intro p h; (cases h)⟩
    · simp only [List.flatten_cons]
      have hin : ∀ p ∈ List.range' (if min sample (min chunk (total - i)) < min chunk (total - i) then
            i + rnd idx (min chunk (total - i) - min sample (min chunk (total - i))) else i)
            (min sample (min chunk (total - i))), p < total ∧ i ≤ p ∧ p < i + chunk := by
        intro p hp
        rw [List.mem_range'_1] at hp
        split at hp
        · have := hr idx (min chunk (total - i) - min sample (min chunk (total - i))) (by omega)
          omega
        · omega
      constructor
      · rw [List.pairwise_append]
        refine ⟨List.pairwise_lt_range', i1, ?_⟩
        intro a ha b hb
        obtain ⟨_, j, hj, h1, _⟩ := i2 b hb
        have h2 := hin a ha
        have h3 := hp.1 j hj
        omega
      · intro p hp
        rcases List.mem_append.mp hp with h | h
        · exact ⟨(hin p h).1, i, List.mem_cons_self, (hin p h).2⟩
        · obtain ⟨h1, j, hj, h2⟩ := i2 p h
          exact ⟨h1, j, List.mem_cons_of_mem _ hj, h2⟩

theorem effLoop_lower (total n chunk sample : Nat) (rnd : Nat → Nat → Nat) (hs : 0 < sample) (hc : sample ≤ chunk)
    (idx sampled q : Nat) (is : List Nat) (hq : q ≤ is.length) (hfull : ∀ i ∈ is.take q, i + chunk ≤ total)
    (hn : sampled + q * sample ≤ n) :
    q * sample ≤ (effLoop total n chunk sample rnd idx sampled is).flatten.length := by
  induction q generalizing idx sampled is with
  | zero => omega
  | succ q ih =>
    cases is with
    | nil => simp at hq
    | cons i is =>
      rw [Nat.add_mul, Nat.one_mul] at *
      unfold effLoop
      rw [if_neg (by omega)]
      have h1 := ih (idx + 1) (sampled + sample) is (by simpa using hq)
        (fun j hj => hfull j (by simp only [List.take_succ_cons]; exact List.mem_cons_of_mem _ hj)) (by omega)
      have h2 := hfull i (by simp)
      simp only [List.flatten_cons, List.length_append, List.length_range']
      omega

theorem effLoop_upper (total n chunk sample : Nat) (rnd : Nat → Nat → Nat) (hs : 0 < sample)
    (idx sampled : Nat) (is : List Nat) :
    (n ≤ sampled → (effLoop total n chunk sample rnd idx sampled is).flatten.length = 0) ∧
    (effLoop total n chunk sample rnd idx sampled is).flatten.length ≤ n - sampled + (sample - 1) ∧
    (∀ k, n - sampled = k * sample → (effLoop total n chunk sample rnd idx sampled is).flatten.length ≤ n - sampled) := by
  induction is generalizing idx sampled with
  | nil => simp [effLoop]
  | cons i is ih =>
    obtain ⟨h0, h1, h2⟩ := ih (idx + 1) (sampled + sample)
    unfold effLoop
    split
    · refine ⟨fun _ => rfl, Nat.zero_le _, fun _ _ => Nat.zero_le _⟩
    · simp only [List.flatten_cons, List.length_append, List.length_range']
      refine ⟨fun h => by omega, ?_, ?_⟩
      · by_cases hc : n ≤ sampled + sample
        · have := h0 hc; omega
        · omega
      · intro k hk
        cases k with
        | zero => omega
        | succ k =>
          rw [Nat.add_mul, Nat.one_mul] at hk
          have := h2 k (by omega)
          omega

theorem pyRange_gap (start stop step : Nat) : (pyRange start stop step).Pairwise (fun a b => a + step ≤ b) := by
  unfold pyRange
  rw [List.pairwise_map]
  refine List.Pairwise.imp ?_ List.pairwise_lt_range
  intro a b hab
  have := Nat.mul_le_mul_right step (show a + 1 ≤ b from hab)
  rw [Nat.add_mul, Nat.one_mul] at this
  omega

/-- The sample in blocks: sorted positions in range, fewer than `n / maxTakes` too many, fewer than `maxTakes`
missing, and exactly `n` if `maxTakes` divides `n`. -/
theorem efficientSample_spec (total n bs maxTakes : Nat) (rnd : Nat → Nat → Nat)
    (hr : ∀ idx size, 0 < size → rnd idx size < size) (hm : 0 < maxTakes) (hn : maxTakes < n) (ht : n < total) :
    let out := (efficientSample total n bs maxTakes rnd).flatten
    out.Pairwise (· < ·) ∧ (∀ p ∈ out, p < total) ∧ n < out.length + maxTakes ∧ out.length < n + n / maxTakes ∧
    (maxTakes ∣ n → out.length = n) := by
  simp only
  unfold efficientSample
  simp only [bufferTakes_flatten, List.nil_append]
  have hs : 0 < n / maxTakes := Nat.div_pos (by omega) hm
  have hc : n / maxTakes ≤ total / maxTakes := Nat.div_le_div_right (by omega)
  have hchunk : 0 < total / maxTakes := by omega
  obtain ⟨w1, w2⟩ := effLoop_within total n (total / maxTakes) (n / maxTakes) rnd hr 0 0
    (pyRange 0 total (total / maxTakes)) (pyRange_gap _ _ _)
  obtain ⟨_, u1, u2⟩ := effLoop_upper total n (total / maxTakes) (n / maxTakes) rnd hs 0 0
    (pyRange 0 total (total / maxTakes))
  have hmul : total / maxTakes * maxTakes ≤ total := Nat.div_mul_le_self _ _
  have hmn : n / maxTakes * maxTakes ≤ n := Nat.div_mul_le_self _ _
  have lower := effLoop_lower total n (total / maxTakes) (n / maxTakes) rnd hs hc 0 0 maxTakes
    (pyRange 0 total (total / maxTakes)) (by
      rw [length_pyRange, Nat.le_div_iff_mul_le hchunk, Nat.mul_comm]
      omega) (by
      intro i hi
      unfold pyRange at hi
      rw [← List.map_take, List.take_range] at hi
      obtain ⟨j, hj, rfl⟩ := List.mem_map.mp hi
      have hj' : j < maxTakes := by have := List.mem_range.mp hj; omega
      have h1 := Nat.mul_le_mul_right (total / maxTakes) (show j + 1 ≤ maxTakes from hj')
      rw [Nat.add_mul, Nat.one_mul, Nat.mul_comm maxTakes] at h1
      omega) (by rw [Nat.mul_comm maxTakes]; omega)
  rw [Nat.mul_comm] at lower
  refine ⟨w1, fun p hp => (w2 p hp).1, ?_, by omega, ?_⟩
  · have e1 := Nat.div_add_mod n maxTakes
    have e2 := Nat.mod_lt n hm
    rw [Nat.mul_comm] at e1
    omega
  · intro hd
    have e := Nat.div_mul_cancel hd
    have := u2 maxTakes (by rw [Nat.mul_comm maxTakes]; omega)
    omega

/-! ## The filtered sample -/

theorem filtLoop_sublist (bs : Nat) (read : List (List Nat)) (tables : List Nat) (remaining : Nat) (inBatch : Int) :
    (filtLoop bs read tables remaining inBatch).flatten.Sublist (tables ++ read.flatten) ∧
    (filtLoop bs read tables remaining inBatch).flatten.length ≤ tables.length + remaining := by
  induction read generalizing tables remaining inBatch with
  | nil => exact ⟨List.nil_sublist _, Nat.zero_le _⟩
  | cons t read ih =>
    unfold filtLoop
    simp only
    rw [List.flatten_cons]
    have hsub : (tables ++ t.take remaining ++ read.flatten).Sublist (tables ++ (t ++ read.flatten)) := by
      rw [List.append_assoc]
      exact List.Sublist.append (List.Sublist.refl _) (List.Sublist.append (List.take_sublist _ _) (List.Sublist.refl _))
    have hlen : (tables ++ t.take remaining).length + (remaining - (t.take remaining).length) =
        tables.length + remaining := by
      simp only [List.length_append, List.length_take]; omega
    by_cases h0 : t.length > 0
    · rw [if_pos h0]
      generalize t.take remaining = x at hsub hlen
      generalize inBatch - (x.length : Int) = ib
      by_cases h1 : ib ≤ 0
      · rw [if_pos h1]
        simp only [List.flatten_cons]
        by_cases h2 : remaining - x.length = 0
        · rw [if_pos h2]
          constructor
          · refine List.Sublist.trans ?_ hsub
            simp only [List.flatten_nil, List.append_nil]
            exact (List.take_sublist _ _).trans (List.sublist_append_left _ _)
          · simp only [List.flatten_nil, List.append_nil]
            rw [List.length_take]
            omega
        · rw [if_neg h2]
          by_cases h3 : (tables ++ x).length > bs
          · rw [if_pos h3]
            obtain ⟨i1, i2⟩ := ih ((tables ++ x).drop bs) (remaining - x.length)
              (((min bs (remaining - x.length) : Nat) : Int) - (((tables ++ x).drop bs).length : Int))
            constructor
            · refine List.Sublist.trans ?_ hsub
              conv => rhs; rw [← List.take_append_drop bs (tables ++ x), List.append_assoc]
              exact List.Sublist.append (List.Sublist.refl _) i1
            · rw [List.length_append]
              refine Nat.le_trans (Nat.add_le_add_left i2 _) ?_
              rw [List.length_take, List.length_drop]
              omega
          · rw [if_neg h3]
            obtain ⟨i1, i2⟩ := ih [] (remaining - x.length) ((min bs (remaining - x.length) : Nat) : Int)
            constructor
            · refine List.Sublist.trans ?_ hsub
              exact List.Sublist.append (List.take_sublist _ _) i1
            · rw [List.length_append]
              refine Nat.le_trans (Nat.add_le_add_left i2 _) ?_
              rw [List.length_take, List.length_nil]
              omega
      · rw [if_neg h1]
        by_cases h2 : remaining - x.length = 0
        · rw [if_pos h2]
          exact ⟨List.nil_sublist _, Nat.zero_le _⟩
        · rw [if_neg h2]
          obtain ⟨i1, i2⟩ := ih (tables ++ x) (remaining - x.length) ib
          exact ⟨List.Sublist.trans i1 hsub, Nat.le_trans i2 (Nat.le_of_eq hlen)⟩
    · rw [if_neg h0]
      have e : t = [] := List.length_eq_zero_iff.mp (by omega)
      rw [e, List.nil_append]
      exact ih tables remaining inBatch

/-- One batch for the whole sample: all or nothing. -/
theorem filtLoop_one (bs : Nat) (read : List (List Nat)) (tables : List Nat) (remaining : Nat)
    (hr : 0 < remaining) (hb : tables.length + remaining ≤ bs) :
    (remaining ≤ read.flatten.length →
      (filtLoop bs read tables remaining remaining).flatten.length = tables.length + remaining) ∧
    (read.flatten.length < remaining → filtLoop bs read tables remaining remaining = []) := by
  induction read generalizing tables remaining with
  | nil =>
    constructor
    · intro h; simp at h; omega
    · intro _; rfl
  | cons t read ih =>
    unfold filtLoop
    simp only
    rw [List.flatten_cons, List.length_append]
    by_cases h0 : t.length > 0
    · rw [if_pos h0]
      have hx : (t.take remaining).length = min remaining t.length := List.length_take
      by_cases h1 : remaining ≤ t.length
      · have hx' : (t.take remaining).length = remaining := by omega
        generalize t.take remaining = x at hx'
        rw [if_pos (by omega), if_pos (by omega)]
        constructor
        · intro _
          simp only [List.flatten_cons, List.flatten_nil, List.append_nil, List.length_take, List.length_append]
          omega
        · intro h; omega
      · have hx' : (t.take remaining).length = t.length := by omega
        generalize t.take remaining = x at hx'
        rw [if_neg (by omega), if_neg (by omega)]
        obtain ⟨i1, i2⟩ := ih (tables ++ x) (remaining - x.length) (by omega)
          (by rw [List.length_append]; omega)
        rw [show ((remaining : Int) - (x.length : Int)) = ((remaining - x.length : Nat) : Int) by omega]
        rw [List.length_append] at i1
        constructor
        · intro h; have := i1 (by omega); omega
        · intro h; exact i2 (by omega)
    · rw [if_neg h0]
      have := ih tables remaining hr hb
      constructor
      · intro h; exact this.1 (by omega)
      · intro h; exact this.2 (by omega)

/-- The shards have the rows that pass the filter, each once. -/
theorem windows_perm (total shardSize : Nat) (hs : 0 < shardSize) (keep : Nat → Bool) (shards : List Nat)
    (hp : shards.Perm (List.range ((total + (shardSize - 1)) / shardSize))) :
    ((shards.map (window total shardSize keep)).flatten).Perm ((List.range total).filter keep) := by
  rw [← List.flatMap_def]
  refine (hp.flatMap_right _).trans ?_
  have e : (List.range ((total + (shardSize - 1)) / shardSize)).flatMap (window total shardSize keep) =
      ((List.range ((total + (shardSize - 1)) / shardSize)).flatMap (fun s =>
        List.range' (s * shardSize) (min (s * shardSize + shardSize) total - s * shardSize))).filter keep := by
    generalize List.range ((total + (shardSize - 1)) / shardSize) = l
    induction l with
    | nil => rfl
    | cons a l ih => rw [List.flatMap_cons, List.flatMap_cons, List.filter_append, ih]; rfl
  rw [e]
  apply List.Perm.filter
  have h := (C40_ranges total shardSize 1 hs (by omega)).1
  simp only [positions, genRanges, pyRange] at h
  simp only [List.range_succ, List.range_zero, List.nil_append, List.flatMap_cons, List.flatMap_nil, List.append_nil,
    Nat.zero_mul, Nat.one_mul, Nat.sub_zero, List.flatMap_map, Nat.zero_add] at h
  exact h

theorem filteredSample_spec (D : Dice) (total n bs maxTakes : Nat) (keep : Nat → Bool) (hm : 0 < maxTakes) (hn : 0 < n) :
    ∃ out, filteredSample total n bs maxTakes keep D.shuffle = some out ∧ out.flatten.Nodup ∧
      (∀ p ∈ out.flatten, p ∈ matching total (some keep)) ∧ out.flatten.length ≤ n ∧
      (n ≤ bs → out.flatten.length = if n ≤ (matching total (some keep)).length then n else 0) := by
  unfold filteredSample
  have hs : 0 < (n + (maxTakes - 1)) / maxTakes := Nat.div_pos (by omega) hm
  simp only
  rw [if_neg (by omega)]
  generalize (n + (maxTakes - 1)) / maxTakes = shardSize at hs
  have hw := windows_perm total shardSize hs keep _ (D.shuffle_perm (List.range ((total + (shardSize - 1)) / shardSize)))
  generalize hread : (D.shuffle (List.range ((total + (shardSize - 1)) / shardSize))).map (window total shardSize keep) =
    read at hw
  obtain ⟨f1, f2⟩ := filtLoop_sublist bs read [] n ((min bs n : Nat) : Int)
  rw [List.nil_append] at f1
  have hnd : ((List.range total).filter keep).Nodup := List.nodup_range.filter _
  refine ⟨_, rfl, ?_, ?_, by simpa using f2, ?_⟩
  · exact List.Nodup.sublist f1 (hw.nodup_iff.mpr hnd)
  · intro p hp
    exact hw.mem_iff.mp (f1.mem hp)
  · intro hle
    rw [show min bs n = n by omega]
    obtain ⟨o1, o2⟩ := filtLoop_one bs read [] n hn (by simpa using hle)
    have hl : read.flatten.length = (matching total (some keep)).length := hw.length_eq
    rw [hl] at o1 o2
    split
    · rename_i h; simpa using o1 h
    · rename_i h; rw [o2 (by omega)]; rfl

theorem batchesOf_flatten (bs : Nat) (hb : 0 < bs) (fuel : Nat) (l : List Nat) (hf : l.length ≤ fuel) :
    (batchesOf bs fuel l).flatten = l := by
  induction fuel generalizing l with
  | zero => rw [List.length_eq_zero_iff.mp (by omega : l.length = 0)]; rfl
  | succ fuel ih =>
    unfold batchesOf
    split
    · rename_i h; rw [h]; rfl
    · rw [List.flatten_cons, ih _ (by rw [List.length_drop]; omega), List.take_append_drop]

/-- **C41 (partial).** For every dataset, sample size, batch size, limit on takes and random choices, the rows
returned are different and pass the filter.  Without a filter there are fewer than `n + max(1, n / maxTakes)` and more
than `n - maxTakes` of them (all, if the dataset is not larger than the sample); there are exactly `n` if `n` is at
most `maxTakes`, or a multiple of it.  With a filter there are never too many, and if one batch holds the sample there
are `n` or none.  Missing for the full claim: the other sizes, which are wrong. -/
theorem C41_sample_partial (D : Dice) (scan : List Nat → List (List Nat)) (hscan : ∀ l, (scan l).flatten = l)
    (total n bs maxTakes : Nat) (hb : 0 < bs) (hm : 0 < maxTakes) (filt : Option (Nat → Bool))
    (h0 : filt ≠ none → 0 < n) :
    ∃ out, maybeSample D scan total n bs maxTakes filt = some out ∧ out.flatten.Nodup ∧
      (∀ p ∈ out.flatten, p ∈ matching total filt) ∧
      (total ≤ n → out.flatten.length = (matching total filt).length) ∧
      (filt = none → n < total → n < out.flatten.length + maxTakes ∧ out.flatten.length < n + max 1 (n / maxTakes) ∧
        (n ≤ maxTakes ∨ maxTakes ∣ n → out.flatten.length = n)) ∧
      (filt ≠ none → n < total → out.flatten.length ≤ n ∧
        (n ≤ bs → out.flatten.length = if n ≤ (matching total filt).length then n else 0)) := by
  unfold maybeSample
  by_cases ht : n ≥ total
  · rw [if_pos ht]
    refine ⟨_, rfl, ?_, ?_, ?_, ?_, ?_⟩
    · rw [hscan]; exact List.nodup_range.filter _
    · rw [hscan]; intro p hp; exact hp
    · intro _; rw [hscan]; rfl
    · intro _ h; omega
    · intro _ h; omega
  · rw [if_neg ht]
    cases filt with
    | some keep =>
      obtain ⟨out, h1, h2, h3, h4, h5⟩ := filteredSample_spec D total n bs maxTakes keep hm (h0 (by simp))
      exact ⟨out, h1, h2, h3, fun h => by omega, fun h => by (cases h), fun _ _ => ⟨h4, h5⟩⟩
    | none =>
      have hmem : ∀ p, p ∈ matching total none ↔ p < total := by
        intro p; simp [matching]
      simp only
      by_cases hn : n > maxTakes
      · rw [if_pos hn]
        obtain ⟨e1, e2, e3, e4, e5⟩ := efficientSample_spec total n bs maxTakes D.randint D.randint_lt hm hn (by omega)
        refine ⟨_, rfl, e1.imp (by intro a b h; omega), fun p hp => (hmem p).mpr (e2 p hp), fun h => by omega,
          fun _ _ => ⟨e3, by omega, ?_⟩, fun h => absurd rfl h⟩
        rintro (h | h)
        · omega
        · exact e5 h
      · rw [if_neg hn]
        have hl := D.choice_len total n (by omega)
        have e := batchesOf_flatten bs hb n (D.choice total n) (by omega)
        refine ⟨_, rfl, ?_, ?_, fun h => by omega, ?_, fun h => absurd rfl h⟩
        · rw [e]; exact D.choice_nodup total n (by omega)
        · rw [e]; intro p hp; exact (hmem p).mpr (D.choice_lt total n (by omega) p hp)
        · intro _ _
          rw [e, hl]
          refine ⟨by omega, by omega, fun _ => rfl⟩

example : maybeSample dice Take.one 10 6 4 3 none = some [[0, 1, 3, 4], [6, 7]] := by decide +kernel
example : maybeSample dice Take.one 10 3 2 3 none = some [[0, 1], [2]] := by decide +kernel
example : maybeSample dice Take.one 10 3 5 3 (some (fun i => i % 3 = 1)) = some [[1, 4, 7]] := by decide +kernel

/-! ## Reservoir sampling -/

/-- Entries of the stream with their priorities. -/
def entries {β : Type} : List Nat → List β → List (Nat × β)
  | _, [] => []
  | prio, b :: bs => (prio.headD 0, b) :: entries prio.tail bs

theorem map_entries {β : Type} (prio : List Nat) (l : List β) : (entries prio l).map (·.2) = l := by
  induction l generalizing prio with
  | nil => rfl
  | cons b l ih => simp [entries, ih]

theorem reservoirLoop_spec {β : Type} (H : Heap β) (k : Nat) (hk : 0 < k) (prio : List Nat) (h d : List (Nat × β))
    (bs : List β) (hlen : h.length ≤ k) (hd : d ≠ [] → h.length = k) (hmin : ∀ x ∈ d, ∀ y ∈ h, x.1 ≤ y.1) :
    ∃ out dropped, reservoirLoop H k prio h bs = some out ∧ (out ++ dropped).Perm (h ++ d ++ entries prio bs) ∧
      out.length = min k (h.length + bs.length) ∧ (∀ x ∈ dropped, ∀ y ∈ out, x.1 ≤ y.1) := by
  induction bs generalizing prio h d with
  | nil =>
    refine ⟨h, d, rfl, by simp [entries], ?_, hmin⟩
    simp only [List.length_nil]; omega
  | cons b bs ih =>
    unfold reservoirLoop
    rw [if_neg (by omega)]
    simp only
    by_cases hc : h.length < k
    · rw [if_pos hc]
      have hd0 : d = [] := by
        cases d with
        | nil => rfl
        | cons a d => exact absurd (hd (by simp)) (by omega)
      subst hd0
      have hp := H.push_perm h (prio.headD 0, b)
      have hpl := hp.length_eq
      rw [List.length_cons] at hpl
      obtain ⟨out, dr, h1, h2, h3, h4⟩ := ih prio.tail (H.push h (prio.headD 0, b)) [] (by omega) (by simp) (by simp)
      refine ⟨out, dr, h1, h2.trans ?_, by rw [h3, hpl, List.length_cons]; omega, h4⟩
      simp only [List.append_nil, entries]
      refine (hp.append_right _).trans ?_
      exact (List.perm_middle).symm
    · rw [if_neg hc]
      have hp := H.pushpop_perm h (prio.headD 0, b)
      have hm := H.pushpop_min h (prio.headD 0, b)
      generalize H.pushpop h (prio.headD 0, b) = r at hp hm
      have hpl := hp.length_eq
      simp only [List.length_cons] at hpl
      obtain ⟨out, dr, h1, h2, h3, h4⟩ := ih prio.tail r.2 (r.1 :: d) (by omega) (fun _ => by omega) (by
        intro x hx y hy
        have hy' : y ∈ (prio.headD 0, b) :: h := hp.mem_iff.mp (List.mem_cons_of_mem _ hy)
        rcases List.mem_cons.mp hx with e | hx
        · rw [e]; exact hm y hy'
        · rcases List.mem_cons.mp hy' with e | hyh
          · have hv : r.1 ∈ (prio.headD 0, b) :: h := hp.mem_iff.mp List.mem_cons_self
            rcases List.mem_cons.mp hv with e2 | hv
            · rw [e2] at hp
              have hp' := (List.perm_cons _).mp hp
              exact hmin x hx y (hp'.mem_iff.mp hy)
            · have a1 := hmin x hx r.1 hv
              have a2 := hm y hy'
              omega
          · exact hmin x hx y hyh)
      refine ⟨out, dr, h1, h2.trans ?_, by rw [h3, List.length_cons]; omega, h4⟩
      simp only [entries]
      have q : (r.2 ++ r.1 :: d ++ entries prio.tail bs).Perm ((r.1 :: r.2) ++ (d ++ entries prio.tail bs)) := by
        rw [List.append_assoc]
        exact List.perm_middle
      refine q.trans ((hp.append_right _).trans ?_)
      rw [← List.append_assoc, List.cons_append, List.cons_append]
      exact (List.perm_middle).symm

/-- C41 for reservoir sampling, in full. -/
def C41_reservoir_statement : Prop :=
  ∀ (H : Heap Nat) (k : Nat) (prio stream : List Nat), ∃ out dropped, reservoirSampling H k prio stream = some out ∧
    (out ++ dropped).Perm stream ∧ out.length = min k stream.length

/-- A reservoir of no items raises an exception, rather than returning none. -/
theorem C41_reservoir_violated : ¬ C41_reservoir_statement := by
  intro h
  obtain ⟨out, _, h1, _⟩ := h (listHeap Nat) 0 [] [1]
  cases h1

/-- **C41 (reservoir; partial).** Reservoir sampling of `k > 0` items returns `min(k, length)` items of the stream,
each used at most once, for every stream, random priorities and heap; and no item that is left out has a larger
priority than one returned. -/
theorem C41_reservoir_partial {β : Type} (H : Heap β) (k : Nat) (hk : 0 < k) (prio : List Nat) (stream : List β) :
    ∃ out dropped : List (Nat × β), reservoirSampling H k prio stream = some (out.map (·.2)) ∧
      (out ++ dropped).Perm (entries prio stream) ∧
      ((out ++ dropped).map (·.2)).Perm stream ∧
      (out.map (·.2)).length = min k stream.length ∧ ∀ x ∈ dropped, ∀ y ∈ out, x.1 ≤ y.1 := by
  obtain ⟨out, dr, h1, h2, h3, h4⟩ := reservoirLoop_spec H k hk prio [] [] stream (Nat.zero_le _) (by simp) (by simp)
  simp only [List.nil_append, List.length_nil, Nat.zero_add] at h2 h3
  refine ⟨out, dr, by unfold reservoirSampling; rw [h1]; rfl, h2, ?_, by rw [List.length_map]; exact h3, h4⟩
  have := h2.map (·.2)
  rwa [map_entries] at this

example : reservoirSampling (listHeap Nat) 2 [5, 1, 3, 2] [10, 20, 30, 40] = some [30, 10] := by decide +kernel

end Verif.Sampler
