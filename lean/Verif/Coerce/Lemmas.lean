import Verif.Coerce.Spec

/-! Helper lemmas for literal coercion. -/
namespace Verif.Coerce

variable {S : Type}

theorem bits_le (fuel a n : Nat) (h : a < 2 ^ n) : bits fuel a ≤ n := by
  induction fuel generalizing a n with
  | zero => simp [bits]
  | succ f ih =>
    unfold bits
    split
    · exact Nat.zero_le _
    · rename_i ha
      cases n with
      | zero => simp at h; exact absurd h ha
      | succ n =>
        have : a / 2 < 2 ^ n := by
          rw [Nat.pow_succ] at h
          omega
        have := ih (a / 2) n this
        omega

theorem roundNat_exact (s a : Nat) (h : 2 ^ s ∣ a) : roundNat s a = a := by
  obtain ⟨c, rfl⟩ := h
  have hp : 0 < 2 ^ s := Nat.two_pow_pos s
  have h1 : 2 ^ s * c % 2 ^ s = 0 := Nat.mul_mod_right _ _
  have h2 : 2 ^ s * c / 2 ^ s = c := Nat.mul_div_cancel_left _ hp
  simp only [roundNat, h1, h2]
  rw [if_neg (by omega), Nat.mul_comm]

theorem roundTo_exact (p q m e : Nat) (hm : m < 2 ^ p) (hq : q ≤ e) : roundTo p q (m * 2 ^ e) = m * 2 ^ e := by
  apply roundNat_exact
  have hb : bits 4096 (m * 2 ^ e) ≤ p + e := by
    apply bits_le
    rw [Nat.pow_add]
    exact Nat.mul_lt_mul_of_pos_right hm (Nat.two_pow_pos e)
  have hs : max q (bits 4096 (m * 2 ^ e) - p) ≤ e := by omega
  exact Nat.dvd_trans (Nat.pow_dvd_pow 2 hs) (Nat.dvd_mul_left _ _)

theorem roundInt_exact (p q : Nat) (k : Int) (m e : Nat) (hk : k.natAbs = m * 2 ^ e) (hm : m < 2 ^ p) (hq : q ≤ e) :
    roundInt p q k = k := by
  unfold roundInt
  rw [hk, roundTo_exact p q m e hm hq, ← hk]
  split <;> omega

/-- An integer whose value is a float value is kept. -/
theorem roundInt_scaled (N p : Nat) (v : Int) (m e : Nat) (hk : (v * 2 ^ N).natAbs = m * 2 ^ e) (hm : m < 2 ^ p) :
    roundInt p 0 v = v := by
  have hn : (v * 2 ^ N).natAbs = v.natAbs * 2 ^ N := by
    rw [Int.natAbs_mul, Int.natAbs_pow]
    rfl
  rw [hn] at hk
  rcases Nat.le_total N e with he | he
  · rw [← Nat.pow_sub_mul_pow 2 he, ← Nat.mul_assoc] at hk
    have := Nat.eq_of_mul_eq_mul_right (Nat.two_pow_pos N) hk
    exact roundInt_exact p 0 v m (e - N) this hm (Nat.zero_le _)
  · rw [← Nat.pow_sub_mul_pow 2 he, ← Nat.mul_assoc] at hk
    have := Nat.eq_of_mul_eq_mul_right (Nat.two_pow_pos e) hk
    refine roundInt_exact p 0 v v.natAbs 0 (by simp) ?_ (Nat.le_refl _)
    have h2 : 0 < 2 ^ (N - e) := Nat.two_pow_pos _
    have h3 : v.natAbs * 1 ≤ v.natAbs * 2 ^ (N - e) := Nat.mul_le_mul_left _ h2
    omega

theorem wrap_id32 {v : Int} (h : Signed 32 v) : wrap 32 v = v := by
  unfold wrap; unfold Signed at h
  omega

theorem wrap_id64 {v : Int} (h : Signed 64 v) : wrap 64 v = v := by
  unfold wrap; unfold Signed at h
  omega

theorem tryInt64 {v : Int} : Signed 64 v → tryInt .i64 v = some v := by
  intro h
  unfold tryInt
  rw [if_pos]
  unfold Signed at h
  simp only [IntTy.lo, IntTy.hi]
  omega

theorem wider_ok {s t : IntTy} (h : wider s t = true) (x : Int) (hx : s.lo ≤ x ∧ x ≤ s.hi) : t.lo ≤ x ∧ x ≤ t.hi := by
  revert h
  cases s <;> cases t <;> simp [wider] <;> simp [IntTy.lo, IntTy.hi] at hx ⊢ <;> omega

/-- Numbers in different scales. -/
theorem tdiv_exact {v x a b f : Int} (hf : 0 < f) (h : a = b * f) (hb : 0 < b) (he : v * b = x * a) : v.tdiv f = x := by
  have h1 : v = x * f := by
    rw [h] at he
    have : v * b = (x * f) * b := by rw [he, Int.mul_assoc, Int.mul_comm b f]
    exact Int.eq_of_mul_eq_mul_right (by omega) this
  rw [h1]
  exact Int.mul_tdiv_cancel _ (by omega)

end Verif.Coerce
