import Verif.Deletion.Model
import Verif.Deletion.Spec

/-! # Helper lemmas for deletion vectors -/
namespace Verif.Deletion
open Verif

theorem countBelow_mono (p : Nat → Bool) {a b : Nat} (h : a ≤ b) :
    countBelow p a ≤ countBelow p b := by
  induction b with
  | zero => have : a = 0 := by omega
            subst this; exact Nat.le_refl _
  | succ b ih =>
    by_cases hab : a = b + 1
    · subst hab; exact Nat.le_refl _
    · have := ih (by omega)
      simp only [countBelow]; omega

theorem countBelow_le (p : Nat → Bool) (n : Nat) : countBelow p n ≤ n := by
  induction n with
  | zero => simp [countBelow]
  | succ n ih => simp only [countBelow]; split <;> omega

theorem countBelow_add (p : Nat → Bool) (a k : Nat) : countBelow p (a + k) ≤ countBelow p a + k := by
  induction k with
  | zero => simp
  | succ k ih => rw [← Nat.add_assoc]; simp only [countBelow]; split <;> omega

theorem countBelow_not (p : Nat → Bool) (n : Nat) :
    countBelow p n + countBelow (fun i => !p i) n = n := by
  induction n with
  | zero => rfl
  | succ n ih => simp only [countBelow]; by_cases hp : p n = true <;> simp [hp] <;> omega

theorem countBelow_congr {p q : Nat → Bool} {n : Nat} (h : ∀ i, i < n → p i = q i) :
    countBelow p n = countBelow q n := by
  induction n with
  | zero => rfl
  | succ n ih =>
    simp only [countBelow]
    rw [ih (fun i hi => h i (by omega)), h n (by omega)]

theorem countP_lt_succ (s : List Nat) (b : Nat) :
    s.countP (fun x => decide (x < b + 1)) = s.countP (fun x => decide (x < b)) + s.count b := by
  induction s with
  | nil => rfl
  | cons x xs ih =>
    simp only [List.countP_cons, List.count_cons, ih]
    by_cases h1 : x < b
    · have : x ≠ b := by omega
      have h3 : x < b + 1 := by omega
      simp [h1, h3, this]; omega
    · by_cases h2 : x = b
      · subst h2; simp; omega
      · have : ¬ x < b + 1 := by omega
        simp [h1, h2, this]

theorem count_nodup (s : List Nat) (hs : s.Nodup) (b : Nat) :
    s.count b = if s.contains b then 1 else 0 := by
  by_cases h : b ∈ s
  · rw [List.Nodup.count hs]; simp [h]
  · rw [List.count_eq_zero.2 h]; simp [h]

theorem countP_lt (s : List Nat) (hs : s.Nodup) (b : Nat) :
    s.countP (fun x => decide (x < b)) = countBelow (fun i => s.contains i) b := by
  induction b with
  | zero => simp [countBelow]
  | succ b ih => rw [countP_lt_succ, ih, count_nodup s hs]; rfl

theorem countP_range (s : List Nat) (hs : s.Nodup) (a b : Nat) (hab : a ≤ b) :
    s.countP (fun x => decide (a ≤ x) && decide (x < b)) + countBelow (fun i => s.contains i) a
      = countBelow (fun i => s.contains i) b := by
  rw [← countP_lt s hs, ← countP_lt s hs]
  clear hs
  induction s with
  | nil => rfl
  | cons x xs ih =>
    simp only [List.countP_cons]
    by_cases h1 : x < a
    · have h2 : x < b := by omega
      have h3 : ¬ a ≤ x := by omega
      simp [h1, h2, h3]; omega
    · by_cases h2 : x < b
      · have h3 : a ≤ x := by omega
        simp [h1, h2, h3]; omega
      · simp [h1, h2]; omega

theorem foldl_count (s : List Nat) (a k n : Nat) :
    (List.range' a k).foldl (fun acc i => acc + (if s.contains i then 1 else 0)) n
      + countBelow (fun i => s.contains i) a = n + countBelow (fun i => s.contains i) (a + k) := by
  induction k generalizing a n with
  | zero => simp
  | succ k ih =>
    simp only [List.range'_succ, List.foldl_cons]
    have := ih (a + 1) (n + (if s.contains a then 1 else 0))
    simp only [countBelow] at this
    rw [show a + 1 + k = a + (k + 1) by omega] at this
    omega

theorem Sorted.nodup {s : Bm} (h : s.Sorted) : s.Nodup :=
  List.Pairwise.imp (fun h => by omega) h

/-- Representation invariant. -/
def DV.WF : DV → Prop
  | .none => True
  | .set s => s.Nodup
  | .bitmap s => Bm.Sorted s

theorem rangeCardinality_spec (d : DV) (h : d.WF) (a b : Nat) (hab : a ≤ b) :
    d.rangeCardinality a b + countBelow d.contains a = countBelow d.contains b := by
  cases d with
  | none =>
    simp only [DV.rangeCardinality]
    have : ∀ n, countBelow DV.none.contains n = 0 := by
      intro n; induction n with
      | zero => rfl
      | succ n ih => simp [countBelow, ih, DV.contains]
    rw [this, this]
  | set s =>
    simp only [DV.rangeCardinality]
    have := foldl_count s a (b - a) 0
    rw [show a + (b - a) = b by omega] at this
    have e : DV.contains (.set s) = fun i => s.contains i := rfl
    rw [e]; omega
  | bitmap s =>
    simp only [DV.rangeCardinality]
    have := countP_range s (Sorted.nodup h) a b hab
    rw [← List.countP_eq_length_filter]
    exact this

theorem mem_hashExtend (s items : List Nat) (x : Nat) :
    x ∈ hashExtend s items ↔ x ∈ s ∨ x ∈ items := by
  unfold hashExtend
  induction items generalizing s with
  | nil => simp
  | cons y ys ih =>
    simp only [List.foldl_cons, ih, List.mem_cons]
    split
    · rename_i h
      have hy : y ∈ s := by simpa using h
      constructor
      · rintro (h | h) <;> simp [h]
      · rintro (h | h | h)
        · simp [h]
        · subst h; simp [hy]
        · simp [h]
    · simp only [List.mem_cons]
      constructor
      · rintro ((h | h) | h) <;> simp [h]
      · rintro (h | h | h) <;> simp [h]

theorem nodup_hashExtend (s items : List Nat) (h : s.Nodup) : (hashExtend s items).Nodup := by
  unfold hashExtend
  induction items generalizing s with
  | nil => simpa using h
  | cons y ys ih =>
    simp only [List.foldl_cons]
    split
    · exact ih s h
    · rename_i hy
      exact ih _ (List.nodup_cons.2 ⟨by simpa using hy, h⟩)

theorem extend_wf (d : DV) (h : d.WF) (lo : Nat) (up : Option Nat) (items : List Nat) :
    (d.extend lo up items).WF := by
  have hof : ∀ l, Bm.Sorted (Bm.ofList l) := fun l => Bm.sorted_ofList l
  have hne : (hashExtend [] items).Nodup := nodup_hashExtend _ _ List.nodup_nil
  cases d with
  | none =>
    simp only [DV.extend]
    repeat' split
    all_goals first | exact trivial | exact hof _ | exact hne
  | set s =>
    simp only [DV.extend]
    split
    · exact hof _
    · exact nodup_hashExtend _ _ h
  | bitmap s => exact Bm.sorted_union _ _ h

theorem extend_contains (d : DV) (lo : Nat) (up : Option Nat) (items : List Nat)
    (hint : ∀ u, up = some u → items.length ≤ u) (i : Nat) :
    (d.extend lo up items).contains i = true ↔ d.contains i = true ∨ i ∈ items := by
  cases d with
  | none =>
    simp only [DV.extend]
    split
    · rename_i h
      have := hint 0 h
      have : items = [] := List.length_eq_zero_iff.1 (by omega)
      subst this; simp [DV.contains]
    · split
      · simp [DV.contains]
      · split
        · split
          · simp [DV.contains, mem_hashExtend]
          · split <;> simp [DV.contains, mem_hashExtend]
        · split <;> simp [DV.contains, mem_hashExtend]
  | set s =>
    simp only [DV.extend]
    split <;> simp [DV.contains, mem_hashExtend]
  | bitmap s => simp [DV.extend, DV.contains]

theorem mem_sortedIter (d : DV) (i : Nat) : i ∈ d.sortedIter ↔ d.contains i = true := by
  cases d <;> simp [DV.sortedIter, DV.contains]

theorem sorted_sortedIter (d : DV) (h : d.WF) : Bm.Sorted d.sortedIter := by
  cases d with
  | none => exact Bm.sorted_nil
  | set s => exact Bm.sorted_ofList s
  | bitmap s => exact h

/-- Lists without duplicates and with the same members have the same length. -/
theorem nodup_length_eq {s t : List Nat} (hs : s.Nodup) (ht : t.Nodup)
    (h : ∀ x, x ∈ s ↔ x ∈ t) : s.length = t.length :=
  (List.perm_ext_iff_of_nodup hs ht |>.2 h).length_eq

theorem nodup_length_le {s t : List Nat} (hs : s.Nodup) (h : ∀ x ∈ s, x ∈ t) :
    s.length ≤ t.length := by
  induction s generalizing t with
  | nil => simp
  | cons x xs ih =>
    have hx : x ∈ t := h x List.mem_cons_self
    have hnx := (List.nodup_cons.1 hs).1
    have := ih (t := t.erase x) (List.nodup_cons.1 hs).2 (by
      intro y hy
      have hne : y ≠ x := fun e => hnx (e ▸ hy)
      exact (List.mem_erase_of_ne hne).2 (h y (List.mem_cons_of_mem _ hy)))
    rw [List.length_erase_of_mem hx] at this
    have : 0 < t.length := List.length_pos_of_mem hx
    simp only [List.length_cons]; omega

theorem len_sortedIter (d : DV) (h : d.WF) : d.sortedIter.length = d.len := by
  cases d with
  | none => rfl
  | set s =>
    exact nodup_length_eq (Sorted.nodup (Bm.sorted_ofList s)) h (fun x => Bm.mem_ofList x s)
  | bitmap s => rfl

theorem countBelow_le_len (d : DV) (h : d.WF) (n : Nat) : countBelow d.contains n ≤ d.len := by
  have hs := sorted_sortedIter d h
  have : countBelow d.contains n = countBelow (fun i => d.sortedIter.contains i) n := by
    apply countBelow_congr
    intro i _
    rw [Bool.eq_iff_iff]
    simp [mem_sortedIter]
  rw [this, ← countP_lt _ (Sorted.nodup hs), ← len_sortedIter d h]
  exact List.countP_le_length

end Verif.Deletion
