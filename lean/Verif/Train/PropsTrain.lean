import Verif.Train.Lemmas
/-!
# C98: vectors sampled for training

For all random choices.  Choosing bins one by one goes on until every bin has come up; `draws` are the
numbers drawn, and a run in which they are used up is complete if every bin is among them (`Ends`).
-/
namespace Verif.Train

theorem ranges_eq {D : Dice} {numRows hint blockSize byteWidth : Nat} {rs : List (Nat × Nat)}
    (h : randomRanges D numRows hint blockSize byteWidth = some rs) :
    ∃ rows, rowsPerBatch blockSize byteWidth = some rows ∧ 0 < rows ∧
      rs = (bins D numRows hint rows).map (binRange numRows rows) := by
  unfold randomRanges at h
  obtain ⟨rows, h1, h2⟩ := Option.map_eq_some_iff.1 h
  exact ⟨rows, h1, rowsPerBatch_pos h1, h2.symm⟩

/-- The random ranges are not empty, are within the dataset, have no row twice, and, if the run is
complete, have every row.  Each has at most as many rows as fit in a block (at least one). -/
theorem C98_ranges {D : Dice} {numRows hint blockSize byteWidth : Nat} {rs : List (Nat × Nat)}
    (h : randomRanges D numRows hint blockSize byteWidth = some rs)
    (hf : ∀ d ∈ D.draws, d < (numRows + (max 1 (blockSize / byteWidth) - 1)) / max 1 (blockSize / byteWidth)) :
    (∀ r ∈ rs, r.1 < r.2 ∧ r.2 ≤ numRows ∧ r.2 - r.1 ≤ max 1 (blockSize / byteWidth)) ∧
      (rs.flatMap (fun r => List.range' r.1 (r.2 - r.1))).Nodup ∧
      ((∀ i, i < (numRows + (max 1 (blockSize / byteWidth) - 1)) / max 1 (blockSize / byteWidth) → i ∈ D.draws) →
        (rs.flatMap (fun r => List.range' r.1 (r.2 - r.1))).Perm (List.range numRows)) := by
  obtain ⟨rows, h1, hr, h2⟩ := ranges_eq h
  have he : rows = max 1 (blockSize / byteWidth) := by
    unfold rowsPerBatch at h1
    split at h1
    · cases h1
    · exact (Option.some.inj h1).symm
  rw [← he] at hf ⊢
  obtain ⟨b1, b2, b3⟩ := bins_spec D numRows hint rows hf
  have hfm : rs.flatMap (fun r => List.range' r.1 (r.2 - r.1)) =
      (bins D numRows hint rows).flatMap (fun b => rowsOf (binRange numRows rows b)) := by
    rw [h2, List.flatMap_map]
    rfl
  rw [hfm]
  refine ⟨fun r hrm => ?_, nodup_bins hr b1, fun hall => ?_⟩
  · rw [h2] at hrm
    obtain ⟨b, hb, hbr⟩ := List.mem_map.1 hrm
    have hlt := b2 b hb
    have hlow : b * rows < numRows := by
      unfold numBins at hlt
      have h3 : (b + 1) * rows ≤ numRows + (rows - 1) := (Nat.le_div_iff_mul_le hr).1 hlt
      rw [Nat.succ_mul] at h3
      omega
    rw [← hbr]
    simp only [binRange]
    rw [Nat.succ_mul]
    omega
  · refine (List.perm_ext_iff_of_nodup (nodup_bins hr b1) List.nodup_range).2 (fun i => ?_)
    rw [List.mem_range, List.mem_flatMap]
    constructor
    · rintro ⟨b, hb, hi⟩
      exact ((mem_bin hr).1 hi).1
    · intro hi
      exact ⟨i / rows, b3 hall _ (bin_lt hr hi), (mem_bin hr).2 ⟨hi, rfl⟩⟩

/-- Ten rows, four to a block, three asked for out of ten: bins are chosen one by one. -/
def demoDice : Dice where
  shuffle := fun l => l.reverse
  choose := fun n k => List.range (min k n)
  draws := [2, 0, 2, 1, 0]
  shuffle_perm := List.reverse_perm
  choose_nodup := fun _ _ => List.nodup_range
  choose_lt := fun n k i hi => by have := List.mem_range.1 hi; omega
  choose_len := fun n k => by simp

example : randomRanges demoDice 10 1 64 16 = some [(8, 10), (0, 4), (4, 8)] := by decide
example : randomRanges demoDice 10 5 64 16 = some [(8, 10), (4, 8), (0, 4)] := by decide

/-- Full claim: some vectors are found, and they are as the next theorem says. -/
def C98_statement : Prop :=
  ∀ (D : Dice) (numRows hint blockSize byteWidth : Nat) (nullable : Bool) (isNull : Nat → Bool),
    (sampleRows D numRows hint blockSize byteWidth nullable isNull).isSome

/-- The rows whose vectors are used for training are distinct rows of the dataset, none of them null, and
there are as many as asked for or all rows that are not null; at most one block more than asked for. -/
theorem C98_sample {D : Dice} {numRows hint blockSize byteWidth : Nat} {nullable : Bool} {isNull : Nat → Bool}
    {rows : List Nat} (h : sampleRows D numRows hint blockSize byteWidth nullable isNull = some rows)
    (hf : ∀ d ∈ D.draws, d < (numRows + (max 1 (blockSize / byteWidth) - 1)) / max 1 (blockSize / byteWidth))
    (hall : ∀ i, i < (numRows + (max 1 (blockSize / byteWidth) - 1)) / max 1 (blockSize / byteWidth) → i ∈ D.draws) :
    rows.Nodup ∧ (∀ i ∈ rows, i < numRows ∧ (nullable = true → isNull i = false)) ∧
      (hint ≤ rows.length ∨ ∀ i, i < numRows → (nullable = true → isNull i = false) → i ∈ rows) ∧
      (rows.length < hint + max 1 (blockSize / byteWidth) ∨ rows.length ≤ hint ∨ hint = 0) := by
  unfold sampleRows at h
  split at h
  · rename_i hc
    cases h
    refine ⟨D.choose_nodup _ _, fun i hi => ⟨D.choose_lt _ _ i hi, fun hn => by rw [hc.2] at hn; cases hn⟩, .inl ?_, .inr (.inl ?_)⟩
    · rw [D.choose_len]; omega
    · rw [D.choose_len]; omega
  · split at h
    · rename_i hc
      split at h
      · cases h
      · rename_i rs hrs
        simp only at h
        split at h
        · cases h
        · cases h
          obtain ⟨k1, k2, k3⟩ := C98_ranges hrs hf
          have k3 := k3 hall
          have hfl : (rs.map rowsOf).flatten = rs.flatMap (fun r => List.range' r.1 (r.2 - r.1)) := by
            rw [← List.flatMap_def]; rfl
          have hsub := collect_sublist hint isNull 0 (rs.map rowsOf)
          rw [hfl] at hsub
          refine ⟨hsub.nodup (k2.sublist List.filter_sublist), fun i hi => ?_, ?_, ?_⟩
          · have h1 := List.mem_filter.1 (hsub.subset hi)
            exact ⟨List.mem_range.1 (k3.mem_iff.1 h1.1), fun _ => by simpa using h1.2⟩
          · rcases collect_enough hint isNull 0 (rs.map rowsOf) with h1 | h1
            · left; omega
            · right
              intro i hi hn
              rw [h1, hfl]
              exact List.mem_filter.2 ⟨k3.mem_iff.2 (List.mem_range.2 hi), by simp [hn hc.2]⟩
          · by_cases h0 : hint = 0
            · exact .inr (.inr h0)
            · rcases collect_bound hint isNull (k := max 1 (blockSize / byteWidth)) 0 (rs.map rowsOf)
                (fun b hb => by
                  obtain ⟨r, hr, hrb⟩ := List.mem_map.1 hb
                  rw [← hrb]
                  unfold rowsOf
                  rw [List.length_range']
                  exact (k1 r hr).2.2) (by omega) with h1 | h1
              · left; omega
              · right; left; rw [h1]; simp [collect]
    · rename_i h1 h2
      cases h
      have hle : numRows ≤ hint := by
        cases nullable with
        | false => exact Nat.not_lt.1 (fun h => h1 ⟨h, rfl⟩)
        | true => exact Nat.not_lt.1 (fun h => h2 ⟨h, rfl⟩)
      refine ⟨List.nodup_range.sublist List.filter_sublist, fun i hi => ?_, .inr (fun i hi hn => ?_), .inr (.inl ?_)⟩
      · have h3 := List.mem_filter.1 hi
        refine ⟨List.mem_range.1 h3.1, fun hn => ?_⟩
        have := h3.2
        rw [hn] at this
        simpa using this
      · refine List.mem_filter.2 ⟨List.mem_range.2 hi, ?_⟩
        cases nullable with
        | false => rfl
        | true => simp [hn rfl]
      · have := List.length_filter_le (fun i => !(nullable && isNull i)) (List.range numRows)
        rw [List.length_range] at this
        omega

/-- Sampling fails exactly if the column may have nulls, there are more rows than asked for, and either the
vectors have no elements or all of them are null.

Missing for the full claim: these cases (`C98_violated`). -/
theorem C98_error_partial {D : Dice} {numRows hint blockSize byteWidth : Nat} {nullable : Bool} {isNull : Nat → Bool}
    (hf : ∀ d ∈ D.draws, d < (numRows + (max 1 (blockSize / byteWidth) - 1)) / max 1 (blockSize / byteWidth))
    (hall : ∀ i, i < (numRows + (max 1 (blockSize / byteWidth) - 1)) / max 1 (blockSize / byteWidth) → i ∈ D.draws)
    (hint1 : 0 < hint) :
    sampleRows D numRows hint blockSize byteWidth nullable isNull = none ↔
      nullable = true ∧ hint < numRows ∧ (byteWidth = 0 ∨ ∀ i, i < numRows → isNull i = true) := by
  constructor
  · intro h
    unfold sampleRows at h
    split at h
    · cases h
    · split at h
      · rename_i hc
        refine ⟨hc.2, hc.1, ?_⟩
        split at h
        · rename_i hrs
          left
          unfold randomRanges rowsPerBatch at hrs
          split at hrs
          · assumption
          · cases hrs
        · rename_i rs hrs
          right
          simp only at h
          split at h
          · rename_i he
            obtain ⟨k1, k2, k3⟩ := C98_ranges hrs hf
            have hfl : (rs.map rowsOf).flatten = rs.flatMap (fun r => List.range' r.1 (r.2 - r.1)) := by
              rw [← List.flatMap_def]; rfl
            intro i hi
            rcases collect_enough hint isNull 0 (rs.map rowsOf) with h1 | h1
            · rw [he] at h1; simp at h1; omega
            · rw [he, hfl] at h1
              have hm := (k3 hall).mem_iff.2 (List.mem_range.2 hi)
              have := List.filter_eq_nil_iff.1 h1.symm i hm
              simpa using this
          · cases h
      · cases h
  · rintro ⟨h1, h2, h3⟩
    unfold sampleRows
    rw [if_neg (by rw [h1]; simp), if_pos ⟨h2, h1⟩]
    split
    · rfl
    · rename_i rs hrs
      simp only
      rw [if_pos]
      rcases h3 with h3 | h3
      · unfold randomRanges rowsPerBatch at hrs
        rw [if_pos h3] at hrs
        cases hrs
      · obtain ⟨k1, k2, k3⟩ := C98_ranges hrs hf
        refine List.eq_nil_iff_forall_not_mem.2 (fun i hi => ?_)
        have hsub := (collect_sublist hint isNull 0 (rs.map rowsOf)).subset hi
        have h4 := List.mem_filter.1 hsub
        have hfl : (rs.map rowsOf).flatten = rs.flatMap (fun r => List.range' r.1 (r.2 - r.1)) := by
          rw [← List.flatMap_def]; rfl
        rw [hfl] at h4
        have := h3 i (List.mem_range.1 ((k3 hall).mem_iff.1 h4.1))
        rw [this] at h4
        simp at h4

/-- Ten null vectors and a sample of five. -/
theorem C98_violated : ¬ C98_statement := by
  intro h
  have := h demoDice 10 5 64 16 true (fun _ => true)
  exact absurd this (by decide)

/-- A case that meets the conditions: rows 0, 4 and 5 are null, three vectors are asked for; the bins are
read in the order 2, 1, 0 until three vectors are found. -/
theorem C98_nonvacuous :
    sampleRows demoDice 10 3 64 16 true (fun i => i == 0 || i == 4 || i == 5) = some [8, 9, 6, 7] ∧
      (∀ d ∈ demoDice.draws, d < (10 + (max 1 (64 / 16) - 1)) / max 1 (64 / 16)) ∧
      (∀ i, i < (10 + (max 1 (64 / 16) - 1)) / max 1 (64 / 16) → i ∈ demoDice.draws) := by
  refine ⟨by decide, by decide, ?_⟩
  intro i hi
  have hi : i < 3 := hi
  have : i = 0 ∨ i = 1 ∨ i = 2 := by omega
  rcases this with h | h | h <;> subst h <;> decide

end Verif.Train
