import Verif.Fsst.Model
/-! Words and bytes. -/
namespace Verif.Fsst

theorem length_leBytes (n w : Nat) : (leBytes n w).length = n := by
  induction n generalizing w with
  | zero => rfl
  | succ n ih => simp [leBytes, ih]

theorem leBytes_lt {n w b : Nat} (h : b ∈ leBytes n w) : b < 256 := by
  induction n generalizing w with
  | zero => simp [leBytes] at h
  | succ n ih =>
    rcases List.mem_cons.1 h with h | h
    · omega
    · exact ih h

theorem leWord_leBytes (n w : Nat) : leWord (leBytes n w) = w % 256 ^ n := by
  induction n generalizing w with
  | zero => simp [leBytes, leWord, Nat.mod_one]
  | succ n ih =>
    simp only [leBytes, leWord, ih]
    rw [Nat.pow_succ, Nat.mul_comm (256 ^ n) 256, Nat.mod_mul]

theorem leWord_lt (bs : List Nat) (h : ∀ b ∈ bs, b < 256) : leWord bs < 256 ^ bs.length := by
  induction bs with
  | nil => simp [leWord]
  | cons b bs ih =>
    have := ih (fun x hx => h x (List.mem_cons_of_mem _ hx))
    have hb := h b (List.mem_cons_self ..)
    simp only [leWord, List.length_cons, Nat.pow_succ]
    omega

theorem leBytes_leWord (bs : List Nat) (h : ∀ b ∈ bs, b < 256) : leBytes bs.length (leWord bs) = bs := by
  induction bs with
  | nil => rfl
  | cons b bs ih =>
    have hb := h b (List.mem_cons_self ..)
    simp only [List.length_cons, leBytes, leWord]
    rw [show (b + 256 * leWord bs) % 256 = b by omega, show (b + 256 * leWord bs) / 256 = leWord bs by omega,
      ih (fun x hx => h x (List.mem_cons_of_mem _ hx))]

theorem leWord_take (bs : List Nat) (k : Nat) (h : ∀ b ∈ bs, b < 256) : leWord bs % 256 ^ k = leWord (bs.take k) := by
  induction bs generalizing k with
  | nil => simp [leWord]
  | cons b bs ih =>
    have hb := h b (List.mem_cons_self ..)
    cases k with
    | zero => simp [leWord, Nat.mod_one]
    | succ k =>
      have := ih k (fun x hx => h x (List.mem_cons_of_mem _ hx))
      simp only [List.take_succ_cons, leWord, ← this]
      rw [Nat.pow_succ, Nat.mul_comm (256 ^ k) 256, Nat.mod_mul]
      rw [show (b + 256 * leWord bs) % 256 = b by omega, show (b + 256 * leWord bs) / 256 = leWord bs by omega]

/-- The low bytes of a word that was read from bytes. -/
theorem leBytes_mod_leWord (bs : List Nat) (k : Nat) (h : ∀ b ∈ bs, b < 256) (hk : k ≤ bs.length) :
    leBytes k (leWord bs % 256 ^ k) = bs.take k := by
  rw [leWord_take bs k h]
  have := leBytes_leWord (bs.take k) (fun b hb => h b (List.mem_of_mem_take hb))
  rwa [List.length_take, Nat.min_eq_left hk] at this

theorem leBytes_mod (n k w : Nat) (h : n ≤ k) : leBytes n (w % 256 ^ k) = leBytes n w := by
  induction n generalizing k w with
  | zero => rfl
  | succ n ih =>
    cases k with
    | zero => omega
    | succ k =>
      simp only [leBytes]
      rw [Nat.pow_succ, Nat.mul_comm (256 ^ k) 256, Nat.mod_mul]
      rw [show (w % 256 + 256 * (w / 256 % 256 ^ k)) % 256 = w % 256 by omega,
        show (w % 256 + 256 * (w / 256 % 256 ^ k)) / 256 = w / 256 % 256 ^ k by omega, ih k _ (by omega)]

theorem take_leBytes (n k w : Nat) : (leBytes n w).take k = leBytes (min k n) w := by
  induction n generalizing k w with
  | zero => simp [leBytes]
  | succ n ih =>
    cases k with
    | zero => simp [leBytes]
    | succ k =>
      rw [leBytes, List.take_succ_cons, ih, Nat.succ_min_succ, leBytes]

/-- The bytes of two words put one after the other. -/
theorem leBytes_append (m n a b : Nat) (ha : a < 256 ^ m) :
    leBytes (m + n) (b * 256 ^ m + a) = leBytes m a ++ leBytes n b := by
  induction m generalizing a with
  | zero =>
    have : a = 0 := by simpa using ha
    subst this; simp [leBytes]
  | succ m ih =>
    rw [show m + 1 + n = (m + n) + 1 by omega]
    simp only [leBytes, List.cons_append]
    have e : b * 256 ^ (m + 1) = 256 * (b * 256 ^ m) := by
      rw [Nat.pow_succ, ← Nat.mul_assoc, Nat.mul_comm]
    have ha' : a / 256 < 256 ^ m := by
      rw [Nat.pow_succ] at ha
      exact Nat.div_lt_of_lt_mul (by rwa [Nat.mul_comm])
    rw [e, show (256 * (b * 256 ^ m) + a) % 256 = a % 256 by omega,
      show (256 * (b * 256 ^ m) + a) / 256 = b * 256 ^ m + a / 256 by omega, ih _ ha']

theorem two_pow_eq (k : Nat) (h : k ≤ 8) : 2 ^ (64 - (8 - k) * 8) = 256 ^ k := by
  rw [show 64 - (8 - k) * 8 = 8 * k by omega, Nat.pow_mul]

end Verif.Fsst
