import Verif.Sampler.Model

/-!
# Lemmas on ranges with steps
-/
namespace Verif.Sampler

theorem mem_pyRange (start stop step i : Nat) (hs : 0 < step) :
    i ∈ pyRange start stop step ↔ start ≤ i ∧ i < stop ∧ (i - start) % step = 0 := by
  unfold pyRange
  simp only [List.mem_map, List.mem_range]
  constructor
  · rintro ⟨j, hj, rfl⟩
    have h1 : (j + 1) * step ≤ stop - start + (step - 1) := by
      have := (Nat.le_div_iff_mul_le hs).mp (show j + 1 ≤ _ from hj)
      exact this
    rw [Nat.add_mul] at h1
    refine ⟨by omega, by omega, ?_⟩
    rw [Nat.add_sub_cancel_left]
    exact Nat.mul_mod_left j step
  · rintro ⟨h1, h2, h3⟩
    refine ⟨(i - start) / step, ?_, ?_⟩
    · have h4 : ((i - start) / step + 1) * step ≤ stop - start + (step - 1) := by
        rw [Nat.add_mul, Nat.div_mul_cancel (Nat.dvd_of_mod_eq_zero h3)]
        omega
      exact (Nat.le_div_iff_mul_le hs).mpr h4
    · rw [Nat.div_mul_cancel (Nat.dvd_of_mod_eq_zero h3)]
      omega

theorem pyRange_sorted (start stop step : Nat) (hs : 0 < step) : (pyRange start stop step).Pairwise (· < ·) := by
  unfold pyRange
  rw [List.pairwise_map]
  refine List.Pairwise.imp ?_ List.pairwise_lt_range
  intro a b hab
  have := Nat.mul_lt_mul_of_pos_right hab hs
  omega

theorem pyRange_nodup (start stop step : Nat) (hs : 0 < step) : (pyRange start stop step).Nodup :=
  (pyRange_sorted start stop step hs).imp (by intro a b h; omega)

theorem length_pyRange (start stop step : Nat) : (pyRange start stop step).length = (stop - start + (step - 1)) / step := by
  simp [pyRange]

theorem pyRange_succ (start stop step : Nat) :
    pyRange (start + 1) (stop + 1) step = (pyRange start stop step).map (· + 1) := by
  unfold pyRange
  rw [List.map_map, show stop + 1 - (start + 1) = stop - start by omega]
  apply List.map_congr_left
  intro i _
  simp only [Function.comp_apply]
  omega

theorem pyRange_step (start stop step : Nat) (h : start < stop) (hs : 0 < step) :
    pyRange start stop step = start :: pyRange (start + step) stop step := by
  unfold pyRange
  have e : (stop - start + (step - 1)) / step = (stop - (start + step) + (step - 1)) / step + 1 := by
    by_cases hc : start + step ≤ stop
    · rw [← Nat.add_div_right _ hs]
      congr 1
      omega
    · rw [show stop - (start + step) + (step - 1) = step - 1 by omega, Nat.div_eq_of_lt (by omega : step - 1 < step),
        show stop - start + (step - 1) = (stop - start - 1) + step by omega, Nat.add_div_right _ hs,
        Nat.div_eq_of_lt (by omega)]
  rw [e, List.range_succ_eq_map, List.map_cons, List.map_map]
  congr 1
  · simp
  · apply List.map_congr_left
    intro i _
    simp only [Function.comp_apply, Nat.succ_eq_add_one, Nat.add_mul]
    omega

theorem pyRange_empty (start stop step : Nat) (h : stop ≤ start) (hs : 0 < step) : pyRange start stop step = [] := by
  unfold pyRange
  rw [show stop - start + (step - 1) = step - 1 by omega, Nat.div_eq_of_lt (by omega)]
  rfl

/-- Every `size`-th element, from index `skip` on. -/
def nth {α : Type} (size : Nat) : Nat → List α → List α
  | _, [] => []
  | 0, a :: l => a :: nth size (size - 1) l
  | s + 1, _ :: l => nth size s l

theorem nth_eq {α : Type} (size : Nat) (hs : 0 < size) (skip : Nat) (l : List α) :
    (pyRange skip l.length size).filterMap (fun i => l[i]?) = nth size skip l := by
  induction l generalizing skip with
  | nil => rw [List.length_nil, pyRange_empty _ _ _ (Nat.zero_le _) hs]; cases skip <;> rfl
  | cons a l ih =>
    have hsucc : ∀ s, (pyRange (s + 1) (l.length + 1) size).filterMap (fun i => (a :: l)[i]?) = nth size s l := by
      intro s
      rw [pyRange_succ, List.filterMap_map, ← ih s]
      rfl
    cases skip with
    | succ s => exact hsucc s
    | zero =>
      rw [List.length_cons, pyRange_step _ _ _ (Nat.succ_pos _) hs]
      rw [List.filterMap_cons]
      simp only [List.getElem?_cons_zero]
      show a :: _ = a :: _
      congr 1
      rw [← hsucc (size - 1)]
      congr 2
      omega

/-- How many rows to skip after a batch of `n` rows. -/
def after (size skip n : Nat) : Nat :=
  if n ≤ skip then skip - n else (size - (n - skip) % size) % size

theorem nth_append {α : Type} (size : Nat) (hs : 0 < size) (skip : Nat) (hk : skip < size) (a b : List α) :
    nth size skip (a ++ b) = nth size skip a ++ nth size (after size skip a.length) b := by
  induction a generalizing skip with
  | nil =>
    have : after size skip 0 = skip := by simp [after]
    rw [List.length_nil, this]
    cases skip <;> rfl
  | cons x a ih =>
    cases skip with
    | succ s =>
      show nth size s (a ++ b) = nth size s a ++ _
      rw [ih s (by omega)]
      congr 2
      unfold after
      simp only [List.length_cons]
      split <;> split <;> try omega
      congr 2
      · congr 1; omega
    | zero =>
      show x :: nth size (size - 1) (a ++ b) = x :: (nth size (size - 1) a ++ _)
      rw [ih (size - 1) (by omega)]
      congr 3
      unfold after
      simp only [List.length_cons]
      rw [if_neg (show ¬ (a.length + 1 ≤ 0) by omega), Nat.sub_zero]
      split
      · rename_i hle
        by_cases he : a.length + 1 = size
        · rw [he, Nat.mod_self, Nat.sub_zero, Nat.mod_self]; omega
        · rw [Nat.mod_eq_of_lt (by omega : a.length + 1 < size), Nat.mod_eq_of_lt (by omega)]; omega
      · rename_i hgt
        have : (a.length + 1) % size = (a.length - (size - 1)) % size := by
          rw [show a.length + 1 = (a.length - (size - 1)) + size by omega, Nat.add_mod_right]
        rw [this]

theorem after_lt (size skip n : Nat) (hs : 0 < size) (hk : skip < size) : after size skip n < size := by
  unfold after
  split
  · omega
  · exact Nat.mod_lt _ hs

/-- Lists that split the numbers below `total` by an owner are together those numbers. -/
theorem owners_perm (total size : Nat) (own : Nat → Nat) (f : Nat → List Nat) (ho : ∀ p, p < total → own p < size)
    (hn : ∀ r, r < size → (f r).Nodup) (hm : ∀ r, r < size → ∀ p, p ∈ f r ↔ p < total ∧ own p = r) :
    ((List.range size).flatMap f).Perm (List.range total) := by
  refine (List.perm_ext_iff_of_nodup ?_ List.nodup_range).mpr ?_
  · unfold List.Nodup
    rw [List.pairwise_flatMap]
    constructor
    · intro r hr
      exact hn r (List.mem_range.mp hr)
    · refine List.Pairwise.imp_of_mem ?_ List.pairwise_lt_range
      intro a b ha hb hab x hx y hy e
      subst e
      have h1 := ((hm a (List.mem_range.mp ha) x).mp hx).2
      have h2 := ((hm b (List.mem_range.mp hb) x).mp hy).2
      omega
  · intro p
    rw [List.mem_flatMap, List.mem_range]
    constructor
    · rintro ⟨r, hr, hp⟩
      exact ((hm r (List.mem_range.mp hr) p).mp hp).1
    · intro hp
      exact ⟨own p, List.mem_range.mpr (ho p hp), (hm _ (ho p hp) p).mpr ⟨hp, rfl⟩⟩

theorem flatMap_filterMap {β γ δ : Type} (l : List β) (f : β → List γ) (g : γ → Option δ) :
    l.flatMap (fun r => (f r).filterMap g) = (l.flatMap f).filterMap g := by
  induction l with
  | nil => rfl
  | cons a l ih => simp [List.filterMap_append, ih]

theorem filterMap_range {β : Type} (l : List β) : (List.range l.length).filterMap (fun i => l[i]?) = l := by
  have := nth_eq 1 (by omega) 0 l
  have e : pyRange 0 l.length 1 = List.range l.length := by simp [pyRange]
  rw [e] at this
  rw [this]
  clear this e
  induction l with
  | nil => rfl
  | cons a l ih => show a :: nth 1 0 l = a :: l; rw [ih]

end Verif.Sampler
