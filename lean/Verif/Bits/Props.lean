import Verif.Bits.Model

/-! # Property C07: alignment padding and bit widths -/
namespace Verif.Bits

/-- C07: for a power-of-two alignment, the padding brings every length to the least multiple of the
alignment that is not below the length. -/
theorem C07_padding (k n : Nat) :
    ∃ pad, padBytes (2 ^ k) n = some pad ∧ (2 ^ k ∣ n + pad) ∧
      ∀ m, 2 ^ k ∣ m → n ≤ m → n + pad ≤ m := by
  have hpos : 0 < 2 ^ k := Nat.two_pow_pos k
  refine ⟨(2 ^ k - n % 2 ^ k) % 2 ^ k, ?_, ?_, ?_⟩
  · unfold padBytes
    rw [if_neg (by omega), Nat.and_two_pow_sub_one_eq_mod, Nat.and_two_pow_sub_one_eq_mod]
  · generalize 2 ^ k = a at hpos
    have hlt := Nat.mod_lt n hpos
    by_cases h : n % a = 0
    · rw [h]; simp; exact Nat.dvd_of_mod_eq_zero h
    · rw [Nat.mod_eq_of_lt (a := a - n % a) (by omega)]
      refine ⟨n / a + 1, ?_⟩
      have := Nat.div_add_mod n a
      rw [Nat.mul_add, Nat.mul_one]; omega
  · generalize 2 ^ k = a at hpos
    rintro m ⟨q, rfl⟩ hle
    have hlt := Nat.mod_lt n hpos
    have hd := Nat.div_add_mod n a
    by_cases h : n % a = 0
    · rw [h]; simp; exact hle
    · rw [Nat.mod_eq_of_lt (a := a - n % a) (by omega)]
      have hq : n / a < q := by
        false_or_by_contra
        have : a * q ≤ a * (n / a) := Nat.mul_le_mul_left a (by omega)
        omega
      have : a * (n / a + 1) ≤ a * q := Nat.mul_le_mul_left a hq
      rw [Nat.mul_add, Nat.mul_one] at this
      omega

/-- C07: the padding is smaller than the alignment. -/
theorem C07_padding_small (k n : Nat) : ∀ pad, padBytes (2 ^ k) n = some pad → pad < 2 ^ k := by
  intro pad h
  have hpos : 0 < 2 ^ k := Nat.two_pow_pos k
  unfold padBytes at h
  rw [if_neg (by omega), Nat.and_two_pow_sub_one_eq_mod, Nat.and_two_pow_sub_one_eq_mod] at h
  cases h
  exact Nat.mod_lt _ hpos

/-- C07: the power-of-two test is exact on positive numbers. -/
theorem C07_is_pwr_two (n : Nat) (h : 0 < n) : isPwrTwo n = some true ↔ ∃ k, n = 2 ^ k := by
  unfold isPwrTwo
  rw [if_neg (by omega)]
  simp only [Option.some.injEq, decide_eq_true_eq]
  constructor
  · intro hz
    refine ⟨Nat.log2 n, ?_⟩
    -- the highest bit of n
    have h1 : 2 ^ n.log2 ≤ n := Nat.log2_self_le (by omega)
    have h2 : n < 2 ^ (n.log2 + 1) := Nat.lt_log2_self
    false_or_by_contra
    rename_i hne
    have h3 : 2 ^ n.log2 ≤ n - 1 := by omega
    have t1 : n.testBit n.log2 = true := by
      rw [Nat.testBit_eq_decide_div_mod_eq]
      have : n / 2 ^ n.log2 = 1 := by
        apply Nat.div_eq_of_lt_le
        · omega
        · rw [Nat.pow_succ] at h2; omega
      simp [this]
    have t2 : (n - 1).testBit n.log2 = true := by
      rw [Nat.testBit_eq_decide_div_mod_eq]
      have : (n - 1) / 2 ^ n.log2 = 1 := by
        apply Nat.div_eq_of_lt_le
        · omega
        · rw [Nat.pow_succ] at h2; omega
      simp [this]
    have : (n &&& (n - 1)).testBit n.log2 = true := by rw [Nat.testBit_and, t1, t2]; rfl
    rw [hz] at this; simp at this
  · rintro ⟨k, rfl⟩
    rw [Nat.and_two_pow_sub_one_eq_mod]; exact Nat.mod_self _

theorem table_spec : ∀ i : Fin 256, 0 < i.val →
    ∃ w, logTable[i.val]? = some w ∧ i.val < 2 ^ w ∧ ∀ w', i.val < 2 ^ w' → w ≤ w' := by
  have h : ∀ i : Fin 256, 0 < i.val →
    ∃ w : Fin 9, logTable[i.val]? = some w.val ∧ i.val < 2 ^ w.val ∧ 0 < w.val ∧ 2 ^ (w.val - 1) ≤ i.val := by
    decide +kernel
  intro i hi
  obtain ⟨w, h1, h2, h3, h4⟩ := h i hi
  refine ⟨w, h1, h2, ?_⟩
  intro w' hw'
  false_or_by_contra
  have : 2 ^ w' ≤ 2 ^ (w.val - 1) := Nat.pow_le_pow_right (by omega) (by omega)
  omega

theorem shift_width (v k w : Nat) (hv : 0 < v / 2 ^ k) (h1 : v / 2 ^ k < 2 ^ w)
    (h2 : ∀ w', v / 2 ^ k < 2 ^ w' → w ≤ w') :
    v < 2 ^ (w + k) ∧ ∀ w', v < 2 ^ w' → w + k ≤ w' := by
  have hpos : 0 < 2 ^ k := Nat.two_pow_pos k
  constructor
  · rw [Nat.pow_add]; exact (Nat.div_lt_iff_lt_mul hpos).1 h1
  · intro w' hw'
    have hk : k ≤ w' := by
      false_or_by_contra
      have h3 : 2 ^ w' ≤ 2 ^ k := Nat.pow_le_pow_right (by omega) (by omega)
      have : v / 2 ^ k = 0 := Nat.div_eq_of_lt (by omega)
      omega
    have : v / 2 ^ k < 2 ^ (w' - k) := by
      rw [Nat.div_lt_iff_lt_mul hpos, ← Nat.pow_add]
      rwa [show w' - k + k = w' by omega]
    have := h2 _ this
    omega

/-- C07: the computed bit width of a positive `u32` is the least width that holds it. -/
theorem C07_bit_width (v : Nat) (hv : 0 < v) (hb : v < 2 ^ 32) :
    ∃ w, log2Ceil v = some w ∧ v < 2 ^ w ∧ ∀ w', v < 2 ^ w' → w ≤ w' := by
  unfold log2Ceil
  rw [if_neg (by omega)]
  simp only [Nat.shiftRight_eq_div_pow]
  split
  · rename_i h1
    split
    · rename_i h2
      exact table_spec ⟨v, by omega⟩ hv
    · rename_i h2
      obtain ⟨w, a, b, c⟩ := table_spec ⟨v / 2 ^ 8, by omega⟩ (by simp only; omega)
      obtain ⟨d, e⟩ := shift_width v 8 w (by omega) b c
      exact ⟨w + 8, by simp only at a; rw [a]; rfl, d, e⟩
  · rename_i h1
    split
    · rename_i h2
      obtain ⟨w, a, b, c⟩ := table_spec ⟨v / 2 ^ 16, by omega⟩ (by simp only; omega)
      obtain ⟨d, e⟩ := shift_width v 16 w (by omega) b c
      exact ⟨w + 16, by simp only at a; rw [a]; simp [Nat.add_comm], d, e⟩
    · rename_i h2
      have hdd : v / 2 ^ 16 / 2 ^ 8 = v / 2 ^ 24 := by omega
      obtain ⟨w, a, b, c⟩ := table_spec ⟨v / 2 ^ 24, by omega⟩ (by simp only; omega)
      obtain ⟨d, e⟩ := shift_width v 24 w (by omega) b c
      exact ⟨w + 24, by simp only at a; rw [hdd, a]; simp [Nat.add_comm], d, e⟩

/-- C07: the width of zero is refused. -/
theorem C07_bit_width_zero : log2Ceil 0 = none := rfl

example : log2Ceil 70000 = some 17 ∧ padBytes 64 100 = some 28 := by decide

end Verif.Bits
