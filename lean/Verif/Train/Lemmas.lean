import Verif.Train.Model
import Verif.Deletion.Lemmas
/-!
# Lemmas about sampling training vectors
-/
namespace Verif.Train

theorem rowsPerBatch_pos {b w r : Nat} (h : rowsPerBatch b w = some r) : 0 < r := by
  unfold rowsPerBatch at h
  split at h
  · cases h
  · cases h; omega

theorem additional_spec (n : Nat) : ∀ (draws seen : List Nat), seen.Nodup → (∀ d ∈ draws, d < n) → (∀ s ∈ seen, s < n) →
    (seen ++ additional n seen draws).Nodup ∧ (∀ i ∈ additional n seen draws, i < n) ∧
      ((∀ i, i < n → i ∈ seen ∨ i ∈ draws) → ∀ i, i < n → i ∈ seen ++ additional n seen draws)
  | [], seen, hn, _, _ => ⟨by simpa [additional] using hn, by simp [additional], fun h i hi => by
      simpa [additional] using h i hi⟩
  | d :: ds, seen, hn, hd, hs => by
    unfold additional
    have hds : ∀ x ∈ ds, x < n := fun x hx => hd x (List.mem_cons_of_mem _ hx)
    split
    · rename_i hge
      refine ⟨by simpa using hn, by simp, fun _ i hi => ?_⟩
      simp only [List.append_nil]
      -- all bins have been seen
      have hp : ∀ (m : Nat) (l : List Nat), l.Nodup → (∀ s ∈ l, s < m) → m ≤ l.length → ∀ i, i < m → i ∈ l := by
        intro m
        induction m with
        | zero => intro l _ _ _ i hi; omega
        | succ m ih =>
          intro l hl hlt hlen i hi
          by_cases hm : m ∈ l
          · by_cases him : i = m
            · rw [him]; exact hm
            · have := ih (l.erase m) (hl.erase m)
                (fun s hs => by
                  have h1 := (hl.mem_erase_iff.1 hs)
                  have h2 := hlt s h1.2
                  have h3 := h1.1
                  omega)
                (by rw [List.length_erase_of_mem hm]; omega) i (by omega)
              exact (hl.mem_erase_iff.1 this).2
          · have hlt' : ∀ s ∈ l, s < m := fun s hs => by
              have h1 := hlt s hs
              have h2 : s ≠ m := fun h => hm (h ▸ hs)
              omega
            have hle : l.length ≤ m := by
              have := Verif.Deletion.nodup_length_le hl (t := List.range m) (fun s hs => List.mem_range.2 (hlt' s hs))
              simpa using this
            omega
      exact hp n seen hn hs hge i hi
    · split
      · rename_i hmem
        obtain ⟨h1, h2, h3⟩ := additional_spec n ds seen hn hds hs
        refine ⟨h1, h2, fun hall i hi => h3 (fun j hj => ?_) i hi⟩
        rcases hall j hj with h | h
        · exact .inl h
        · rcases List.mem_cons.1 h with h4 | h4
          · exact .inl (h4 ▸ hmem)
          · exact .inr h4
      · rename_i hmem
        obtain ⟨h1, h2, h3⟩ := additional_spec n ds (d :: seen) (List.nodup_cons.2 ⟨hmem, hn⟩) hds
          (fun s h => by
            rcases List.mem_cons.1 h with h4 | h4
            · rw [h4]; exact hd d List.mem_cons_self
            · exact hs s h4)
        have hperm : (seen ++ d :: additional n (d :: seen) ds).Perm ((d :: seen) ++ additional n (d :: seen) ds) :=
          List.perm_middle
        refine ⟨hperm.nodup_iff.2 h1, ?_, fun hall i hi => hperm.mem_iff.2 (h3 (fun j hj => ?_) i hi)⟩
        · intro i hi
          rcases List.mem_cons.1 hi with h4 | h4
          · rw [h4]; exact hd d List.mem_cons_self
          · exact h2 i h4
        · rcases hall j hj with h | h
          · exact .inl (List.mem_cons_of_mem _ h)
          · rcases List.mem_cons.1 h with h4 | h4
            · exact .inl (h4 ▸ List.mem_cons_self)
            · exact .inr h4

/-- The numbers drawn are bins. -/
def Dice.Fits (D : Dice) (n : Nat) : Prop := ∀ d ∈ D.draws, d < n

/-- Enough numbers are drawn for every bin to come up. -/
def Dice.Ends (D : Dice) (n : Nat) : Prop := ∀ i, i < n → i ∈ D.draws

theorem bins_spec (D : Dice) (numRows hint rows : Nat) (hf : D.Fits (numBins numRows rows)) :
    (bins D numRows hint rows).Nodup ∧ (∀ i ∈ bins D numRows hint rows, i < numBins numRows rows) ∧
      (D.Ends (numBins numRows rows) → ∀ i, i < numBins numRows rows → i ∈ bins D numRows hint rows) := by
  unfold bins
  simp only
  split
  · have hp := D.shuffle_perm (List.range (numBins numRows rows))
    exact ⟨hp.nodup_iff.2 List.nodup_range, fun i hi => List.mem_range.1 (hp.mem_iff.1 hi),
      fun _ i hi => hp.mem_iff.2 (List.mem_range.2 hi)⟩
  · obtain ⟨h1, h2, h3⟩ := additional_spec (numBins numRows rows) D.draws
      (D.choose (numBins numRows rows) (hint / rows)) (D.choose_nodup _ _) hf (D.choose_lt _ _)
    refine ⟨h1, ?_, fun he i hi => h3 (fun j hj => .inr (he j hj)) i hi⟩
    intro i hi
    rcases List.mem_append.1 hi with h | h
    · exact D.choose_lt _ _ i h
    · exact h2 i h

theorem mem_rowsOf {r : Nat × Nat} {i : Nat} : i ∈ rowsOf r ↔ r.1 ≤ i ∧ i < r.2 := by
  unfold rowsOf
  rw [List.mem_range'_1]
  omega

theorem mem_bin {numRows rows b i : Nat} (hr : 0 < rows) :
    i ∈ rowsOf (binRange numRows rows b) ↔ i < numRows ∧ i / rows = b := by
  rw [mem_rowsOf]
  simp only [binRange]
  rw [Nat.div_eq_iff hr, Nat.succ_mul]
  omega

theorem bin_lt {numRows rows i : Nat} (hr : 0 < rows) (hi : i < numRows) : i / rows < numBins numRows rows := by
  unfold numBins
  have h1 : i / rows + 1 = (i + rows) / rows := (Nat.add_div_right i hr).symm
  have h2 : (i + rows) / rows ≤ (numRows + (rows - 1)) / rows := Nat.div_le_div_right (by omega)
  omega

theorem nodup_rowsOf (r : Nat × Nat) : (rowsOf r).Nodup := List.nodup_range'

/-- The rows of distinct bins. -/
theorem nodup_bins {numRows rows : Nat} (hr : 0 < rows) : ∀ {bs : List Nat}, bs.Nodup →
    (bs.flatMap (fun b => rowsOf (binRange numRows rows b))).Nodup
  | [], _ => List.nodup_nil
  | b :: bs, h => by
    rw [List.flatMap_cons, List.nodup_append]
    obtain ⟨h1, h2⟩ := List.nodup_cons.1 h
    refine ⟨nodup_rowsOf _, nodup_bins hr h2, fun x hx y hy hxy => ?_⟩
    subst hxy
    obtain ⟨b', hb', hy'⟩ := List.mem_flatMap.1 hy
    have e1 := ((mem_bin hr).1 hx).2
    have e2 := ((mem_bin hr).1 hy').2
    exact h1 (e1 ▸ e2 ▸ hb')

theorem collect_sublist (hint : Nat) (isNull : Nat → Bool) : ∀ (found : Nat) (bs : List (List Nat)),
    (collect hint isNull found bs).Sublist (bs.flatten.filter (fun i => !isNull i))
  | _, [] => by simp [collect]
  | found, b :: bs => by
    simp only [collect, List.flatten_cons, List.filter_append]
    split
    · exact List.sublist_append_left _ _
    · exact List.Sublist.append (List.Sublist.refl _) (collect_sublist hint isNull _ bs)

theorem collect_enough (hint : Nat) (isNull : Nat → Bool) : ∀ (found : Nat) (bs : List (List Nat)),
    hint ≤ found + (collect hint isNull found bs).length ∨
      collect hint isNull found bs = bs.flatten.filter (fun i => !isNull i)
  | _, [] => .inr (by simp [collect])
  | found, b :: bs => by
    simp only [collect, List.flatten_cons, List.filter_append]
    split
    · left; omega
    · rcases collect_enough hint isNull (found + (b.filter (fun i => !isNull i)).length) bs with h | h
      · left
        rw [List.length_append]
        omega
      · right; rw [h]

theorem collect_bound (hint : Nat) (isNull : Nat → Bool) {k : Nat} : ∀ (found : Nat) (bs : List (List Nat)),
    (∀ b ∈ bs, b.length ≤ k) → found < hint → found + (collect hint isNull found bs).length < hint + k ∨ bs = []
  | _, [], _, _ => .inr rfl
  | found, b :: bs, hb, hf => by
    left
    have h1 : (b.filter (fun i => !isNull i)).length ≤ k :=
      Nat.le_trans (List.length_filter_le _ _) (hb b List.mem_cons_self)
    simp only [collect]
    split
    · omega
    · rename_i hlt
      rcases collect_bound hint isNull (found + (b.filter (fun i => !isNull i)).length) bs
        (fun x hx => hb x (List.mem_cons_of_mem _ hx)) (by omega) with h | h
      · rw [List.length_append]; omega
      · subst h
        simp only [collect, List.append_nil]
        omega

end Verif.Train
