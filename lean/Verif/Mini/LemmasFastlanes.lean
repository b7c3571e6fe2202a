import Verif.Mini.Bitpack
/-!
# FastLanes: what is packed is unpacked
-/
namespace Verif.Mini

/-! ### Assignments -/

theorem assign_get (F : Nat → Nat) : ∀ (ws : List (Nat × Nat)) (arr : List Nat) (p : Nat),
    (∀ w ∈ ws, w.2 = F w.1) → (arr.getD p 0 = F p ∨ ∃ w ∈ ws, w.1 = p) → p < arr.length →
    (assign arr ws).length = arr.length ∧ (assign arr ws).getD p 0 = F p := by
  intro ws
  induction ws with
  | nil =>
    intro arr p _ h _
    refine ⟨rfl, ?_⟩
    rcases h with h | ⟨w, h, _⟩
    · exact h
    · exact absurd h (by simp)
  | cons w ws ih =>
    intro arr p hv h hp
    have hrec := ih (arr.set w.1 w.2) p (fun x hx => hv x (List.mem_cons_of_mem _ hx)) ?_ (by simpa using hp)
    · rw [List.length_set] at hrec
      exact hrec
    · by_cases hw : w.1 = p
      · left
        rw [List.getD_eq_getElem?_getD, hw, List.getElem?_set_self hp]
        rw [← hw]; exact hv w List.mem_cons_self
      · rcases h with h | ⟨x, hx, hxp⟩
        · left
          rw [List.getD_eq_getElem?_getD, List.getElem?_set_ne hw, ← List.getD_eq_getElem?_getD]
          exact h
        · right
          rcases List.mem_cons.mp hx with e | e
          · subst e; exact absurd hxp hw
          · exact ⟨x, e, hxp⟩

theorem assign_length (ws : List (Nat × Nat)) : ∀ arr, (assign arr ws).length = arr.length := by
  induction ws with
  | nil => intro arr; rfl
  | cons w ws ih => intro arr; show (assign (arr.set w.1 w.2) ws).length = _; rw [ih, List.length_set]

/-- If every element is assigned, and always the same, the array is known. -/
theorem assign_eq (F : Nat → Nat) (arr : List Nat) (ws : List (Nat × Nat)) (hv : ∀ w ∈ ws, w.2 = F w.1)
    (hc : ∀ p, p < arr.length → ∃ w ∈ ws, w.1 = p) : assign arr ws = (List.range arr.length).map F := by
  refine List.ext_getElem ?_ ?_
  · rw [assign_length, List.length_map, List.length_range]
  · intro i h1 h2
    rw [List.length_map, List.length_range] at h2
    have := (assign_get F ws arr i hv (Or.inr (hc i h2)) h2).2
    rw [List.getD_eq_getElem?_getD, List.getElem?_eq_getElem h1] at this
    simpa using this

/-! ### A lane as one number -/

/-- Values of `W` bits one after another. -/
def laneNum (W : Nat) (v : Nat → Nat) : Nat → Nat
  | 0 => 0
  | n + 1 => 2 ^ (n * W) * (v n % 2 ^ W) + laneNum W v n

theorem laneNum_lt (W : Nat) (v : Nat → Nat) (n : Nat) : laneNum W v n < 2 ^ (n * W) := by
  induction n with
  | zero => simp [laneNum]
  | succ n ih =>
    have h1 : v n % 2 ^ W < 2 ^ W := Nat.mod_lt _ (Nat.two_pow_pos W)
    rw [laneNum, Nat.succ_mul, Nat.pow_add]
    calc 2 ^ (n * W) * (v n % 2 ^ W) + laneNum W v n < 2 ^ (n * W) * (v n % 2 ^ W) + 2 ^ (n * W) := by omega
      _ = 2 ^ (n * W) * (v n % 2 ^ W + 1) := by rw [Nat.mul_add, Nat.mul_one]
      _ ≤ 2 ^ (n * W) * 2 ^ W := Nat.mul_le_mul_left _ h1

/-- Bits of the first values do not depend on the later ones. -/
theorem laneNum_bit_low (W : Nat) (v : Nat → Nat) (n m b : Nat) (hb : b < n * W) (h : n ≤ m) :
    (laneNum W v m).testBit b = (laneNum W v n).testBit b := by
  induction m with
  | zero => rw [Nat.le_zero.mp h]
  | succ m ih =>
    rcases Nat.lt_or_ge n (m + 1) with h1 | h1
    · rw [laneNum, Nat.testBit_two_pow_mul_add _ (laneNum_lt W v m)]
      have : n * W ≤ m * W := Nat.mul_le_mul_right W (by omega)
      rw [if_pos (by omega), ih (by omega)]
    · rw [show n = m + 1 by omega]

theorem laneNum_bit (W : Nat) (v : Nat → Nat) (n i j : Nat) (hi : i < n) (hj : j < W) :
    (laneNum W v n).testBit (i * W + j) = (v i).testBit j := by
  have h1 : i * W + j < (i + 1) * W := by rw [Nat.succ_mul]; omega
  rw [laneNum_bit_low W v (i + 1) n _ h1 (by omega), laneNum, Nat.testBit_two_pow_mul_add _ (laneNum_lt W v i),
    if_neg (by omega), Nat.add_sub_cancel_left, Nat.testBit_mod_two_pow, decide_eq_true hj, Bool.true_and]

theorem laneNum_bit_high (W : Nat) (v : Nat → Nat) (n b : Nat) (h : n * W ≤ b) : (laneNum W v n).testBit b = false :=
  Nat.testBit_lt_two_pow (Nat.lt_of_lt_of_le (laneNum_lt W v n) (Nat.pow_le_pow_right (by omega) h))

/-- Word `k` of a lane. -/
def word (T : Nat) (N k : Nat) : Nat := N / 2 ^ (k * T) % 2 ^ T

theorem word_bit (T N k j : Nat) : (word T N k).testBit j = (decide (j < T) && N.testBit (k * T + j)) := by
  rw [word, Nat.testBit_mod_two_pow, Nat.testBit_div_two_pow, Nat.add_comm]

/-- Where the bits of a row start and end. -/
theorem row_pos (T W row : Nat) (hW : W < T) :
    row * W = row * W / T * T + row * W % T ∧ row * W % T < T ∧ (row + 1) * W = row * W + W ∧
    ((row * W % T + W < T ∧ (row + 1) * W / T = row * W / T ∧ (row + 1) * W % T = row * W % T + W) ∨
      (T ≤ row * W % T + W ∧ (row + 1) * W / T = row * W / T + 1 ∧ (row + 1) * W % T = row * W % T + W - T)) := by
  have h1 : row * W = row * W / T * T + row * W % T := (Nat.div_add_mod' (row * W) T).symm
  have h2 : row * W % T < T := Nat.mod_lt _ (by omega)
  have h3 : (row + 1) * W = row * W + W := Nat.succ_mul row W
  refine ⟨h1, h2, h3, ?_⟩
  rw [h3]
  generalize row * W / T = c at *
  generalize row * W % T = s at *
  rw [h1]
  rcases Nat.lt_or_ge (s + W) T with h | h
  · left
    refine ⟨h, ?_, ?_⟩
    · rw [show c * T + s + W = s + W + T * c by rw [Nat.mul_comm]; omega, Nat.add_mul_div_left _ _ (by omega),
        Nat.div_eq_of_lt h, Nat.zero_add]
    · rw [show c * T + s + W = s + W + T * c by rw [Nat.mul_comm]; omega, Nat.add_mul_mod_self_left, Nat.mod_eq_of_lt h]
  · right
    refine ⟨h, ?_, ?_⟩
    · rw [show c * T + s + W = (s + W - T) + T * (c + 1) by rw [Nat.mul_add, Nat.mul_comm c T]; omega,
        Nat.add_mul_div_left _ _ (by omega), Nat.div_eq_of_lt (by omega), Nat.zero_add]
    · rw [show c * T + s + W = (s + W - T) + T * (c + 1) by rw [Nat.mul_add, Nat.mul_comm c T]; omega,
        Nat.add_mul_mod_self_left, Nat.mod_eq_of_lt (by omega)]

/-! ### Packing -/

theorem packRows_eq (T W lane : Nat) (input : List Nat) (hW : W < T) :
    ∀ (left row tmp : Nat),
    (∀ j, tmp.testBit j = (laneNum W (fun r => input.getD (flIndex r lane) 0) row).testBit (row * W / T * T + j)) →
    packRows T W lane input left row tmp =
      (List.range' (row * W / T) ((row + left) * W / T - row * W / T)).map fun k =>
        (lanes T * k + lane, word T (laneNum W (fun r => input.getD (flIndex r lane) 0) (row + left)) k) := by
  intro left
  induction left with
  | zero => intro row tmp _; simp [packRows]
  | succ left ih =>
    intro row tmp htmp
    obtain ⟨h1, h2, h3, h4⟩ := row_pos T W row hW
    have hih := ih (row + 1)
    rw [packRows]
    generalize hv : (fun r => input.getD (flIndex r lane) 0) = v at *
    have hsrc : input.getD (flIndex row lane) 0 = v row := by rw [← hv]
    rw [hsrc]
    have htmp1 : ∀ j, (if row = 0 then v row % 2 ^ W else tmp ||| (v row % 2 ^ W) <<< (row * W % T) % 2 ^ T).testBit j =
        (decide (j < T) && (laneNum W v (row + 1)).testBit (row * W / T * T + j)) := by
      intro j
      have key : (tmp ||| (v row % 2 ^ W) <<< (row * W % T) % 2 ^ T).testBit j =
          (decide (j < T) && (laneNum W v (row + 1)).testBit (row * W / T * T + j)) := by
        rw [Nat.testBit_or, htmp j, Nat.testBit_mod_two_pow, Nat.testBit_shiftLeft, Nat.testBit_mod_two_pow]
        by_cases hjT : j < T
        · rw [decide_eq_true hjT, Bool.true_and, Bool.true_and]
          by_cases hjs : j < row * W % T
          · rw [← laneNum_bit_low W v row (row + 1) _ (by omega) (by omega)]
            rw [decide_eq_false (by omega), Bool.false_and, Bool.or_false]
          · rw [laneNum_bit_high W v row _ (by omega), Bool.false_or, decide_eq_true (by omega), Bool.true_and]
            by_cases hjw : j - row * W % T < W
            · rw [decide_eq_true hjw, Bool.true_and]
              rw [show row * W / T * T + j = row * W + (j - row * W % T) by omega, laneNum_bit W v _ _ _ (by omega) hjw]
            · rw [decide_eq_false hjw, Bool.false_and, laneNum_bit_high W v (row + 1) _ (by omega)]
        · rw [decide_eq_false hjT, Bool.false_and, Bool.false_and, laneNum_bit_high W v row _ (by omega)]
          rfl
      by_cases hr : row = 0
      · rw [if_pos hr]
        rw [← key]
        subst hr
        have h0 : tmp = 0 := by
          apply Nat.eq_of_testBit_eq
          intro i
          rw [htmp i]
          simp [laneNum]
        rw [h0]
        simp only [Nat.zero_mul, Nat.zero_mod, Nat.shiftLeft_zero, Nat.zero_or]
        rw [Nat.mod_eq_of_lt (Nat.lt_trans (Nat.mod_lt _ (Nat.two_pow_pos W)) (Nat.pow_lt_pow_right (by omega) hW))]
      · rw [if_neg hr]; exact key
    have hmono : (row + 1) * W / T ≤ (row + 1 + left) * W / T :=
      Nat.div_le_div_right (Nat.mul_le_mul_right W (by omega))
    rcases h4 with ⟨h5, h6, h7⟩ | ⟨h5, h6, h7⟩
    · rw [if_neg (by omega)]
      rw [hih _ ?_, h6, show row + 1 + left = row + (left + 1) by omega]
      intro j
      rw [htmp1 j, h6]
      by_cases hjT : j < T
      · rw [decide_eq_true hjT, Bool.true_and]
      · rw [decide_eq_false hjT, Bool.false_and, laneNum_bit_high W v (row + 1) _ (by omega)]
    · rw [if_pos (by omega)]
      rw [hih _ ?_]
      · rw [h6] at hmono ⊢
        rw [show row + (left + 1) = row + 1 + left by omega]
        rw [show (row + 1 + left) * W / T - row * W / T = ((row + 1 + left) * W / T - (row * W / T + 1)) + 1 by omega,
          List.range'_succ, List.map_cons]
        congr 2
        apply Nat.eq_of_testBit_eq
        intro j
        rw [htmp1 j, word_bit]
        by_cases hjT : j < T
        · rw [decide_eq_true hjT, Bool.true_and, Bool.true_and]
          exact (laneNum_bit_low W v (row + 1) _ _ (by omega) (by omega)).symm
        · rw [decide_eq_false hjT, Bool.false_and, Bool.false_and]
      · intro j
        rw [Nat.testBit_shiftRight, Nat.testBit_mod_two_pow, h6, h7, Nat.succ_mul]
        by_cases hj : W - (row * W % T + W - T) + j < W
        · rw [decide_eq_true hj, Bool.true_and]
          rw [show row * W / T * T + T + j = row * W + (W - (row * W % T + W - T) + j) by omega,
            laneNum_bit W v _ _ _ (by omega) hj]
        · rw [decide_eq_false hj, Bool.false_and, laneNum_bit_high W v (row + 1) _ (by omega)]

/-! ### Unpacking -/

theorem unpackRows_eq (T W lane : Nat) (packed : List Nat) (v : Nat → Nat) (hW : W < T)
    (hp : ∀ k, k < W → packed.getD (lanes T * k + lane) 0 = word T (laneNum W v T) k) :
    ∀ (left row src : Nat), row + left = T → (0 < left → src = word T (laneNum W v T) (row * W / T)) →
    unpackRows T W lane packed left row src =
      (List.range' row left).map fun r => (flIndex r lane, v r % 2 ^ W) := by
  intro left
  induction left with
  | zero => intro row src _ _; simp [unpackRows]
  | succ left ih =>
    intro row src hrow hsrc
    have hsrc := hsrc (by omega)
    obtain ⟨h1, h2, h3, h4⟩ := row_pos T W row hW
    have hval : ∀ j, j < W → (v row).testBit j = (laneNum W v T).testBit (row * W / T * T + row * W % T + j) := by
      intro j hj
      rw [← h1, laneNum_bit W v T row j (by omega) hj]
    have hnext : (row + 1) * W / T ≤ W := by
      have h5 : (row + 1) * W ≤ T * W := Nat.mul_le_mul_right W (by omega)
      exact Nat.div_le_of_le_mul h5
    rw [unpackRows, List.range'_succ, List.map_cons]
    rcases h4 with ⟨h5, h6, h7⟩ | ⟨h5, h6, h7⟩
    · rw [if_neg (by omega)]
      rw [ih (row + 1) src (by omega) (fun _ => by rw [h6]; exact hsrc)]
      congr 2
      apply Nat.eq_of_testBit_eq
      intro j
      rw [Nat.testBit_mod_two_pow, Nat.testBit_mod_two_pow, Nat.testBit_shiftRight, hsrc, word_bit]
      by_cases hj : j < W
      · rw [decide_eq_true hj, Bool.true_and, Bool.true_and, decide_eq_true (by omega), Bool.true_and, hval j hj, Nat.add_assoc]
      · rw [decide_eq_false hj, Bool.false_and, Bool.false_and]
    · rw [if_pos (by omega)]
      have hlow : ∀ j, j < T - row * W % T → (src >>> (row * W % T)).testBit j = (v row).testBit j := by
        intro j hj
        rw [Nat.testBit_shiftRight, hsrc, word_bit, decide_eq_true (by omega), Bool.true_and]
        rw [hval j (by omega), Nat.add_assoc]
      by_cases hn : (row + 1) * W / T < W
      · rw [if_pos hn]
        have hsrc' := hp _ hn
        dsimp only
        rw [ih (row + 1) _ (by omega) (fun _ => hsrc')]
        congr 2
        apply Nat.eq_of_testBit_eq
        intro j
        rw [Nat.testBit_or, Nat.testBit_mod_two_pow, Nat.testBit_mod_two_pow, Nat.testBit_mod_two_pow,
          Nat.testBit_shiftLeft, Nat.testBit_mod_two_pow, hsrc', word_bit, h6, h7]
        by_cases hj : j < W
        · rw [decide_eq_true hj, Bool.true_and, decide_eq_true (by omega : j < T), Bool.true_and]
          by_cases hjc : j < T - row * W % T
          · rw [decide_eq_true (by omega : j < W - (row * W % T + W - T)), Bool.true_and, hlow j hjc,
              decide_eq_false (by omega), Bool.false_and, Bool.or_false]
          · rw [decide_eq_false (by omega : ¬ j < W - (row * W % T + W - T)), Bool.false_and, Bool.false_or,
              decide_eq_true (by omega), Bool.true_and, decide_eq_true (by omega), Bool.true_and, decide_eq_true (by omega),
              Bool.true_and, hval j hj, Nat.succ_mul]
            congr 1
            omega
        · rw [decide_eq_false hj, Bool.false_and, decide_eq_false (by omega : ¬ j < W - (row * W % T + W - T)),
            Bool.false_and, Bool.false_or]
          by_cases hjT : j < T
          · rw [decide_eq_true hjT, Bool.true_and]
            by_cases hjc : W - (row * W % T + W - T) ≤ j
            · rw [decide_eq_true hjc, Bool.true_and, decide_eq_false (by omega), Bool.false_and]
            · rw [decide_eq_false hjc, Bool.false_and]
          · rw [decide_eq_false hjT, Bool.false_and]
      · rw [if_neg hn]
        have hlast : row + 1 = T := by
          have h8 : (row + 1) * W / T = W := by omega
          have h9 : W * T ≤ (row + 1) * W := by
            have := Nat.div_mul_le_self ((row + 1) * W) T
            rw [h8] at this
            exact this
          rw [Nat.mul_comm] at h9
          rcases Nat.eq_zero_or_pos W with h0 | h0
          · subst h0; omega
          · have := Nat.le_of_mul_le_mul_right h9 h0
            omega
        have hl : left = 0 := by omega
        subst hl
        simp only [unpackRows, List.range'_zero, List.map_nil]
        have hrem : (row + 1) * W % T = 0 := by rw [hlast]; exact Nat.mul_mod_right T W
        congr 2
        rw [hrem, Nat.sub_zero]
        apply Nat.eq_of_testBit_eq
        intro j
        rw [Nat.testBit_mod_two_pow, Nat.testBit_mod_two_pow]
        by_cases hj : j < W
        · rw [hlow j (by omega)]
        · rw [decide_eq_false hj, Bool.false_and, Bool.false_and]

/-! ### All lanes -/

/-- The integer types. -/
def Word (T : Nat) : Prop := T = 8 ∨ T = 16 ∨ T = 32 ∨ T = 64

/-- Every value is in a lane. -/
theorem flIndex_cover (T : Nat) (hT : Word T) :
    ∀ p, p < 1024 → ∃ lane, lane < lanes T ∧ ∃ row, row < T ∧ flIndex row lane = p := by
  intro p hp
  have hrow : ∀ (o s lane : Nat), s < 8 → flIndex (o * 8 + s) lane = flOrder o * 16 + s * 128 + lane := by
    intro o s lane hs
    unfold flIndex
    rw [show (o * 8 + s) / 8 = o by omega, show (o * 8 + s) % 8 = s by omega]
  have hex : ∀ (o s lane : Nat), lane < lanes T → o * 8 + s < T → s < 8 → flOrder o * 16 + s * 128 + lane = p →
      ∃ lane, lane < lanes T ∧ ∃ row, row < T ∧ flIndex row lane = p :=
    fun o s lane h1 h2 h3 h4 => ⟨lane, h1, _, h2, by rw [hrow o s lane h3, h4]⟩
  have hs : p / 128 < 8 := by omega
  rcases hT with rfl | rfl | rfl | rfl
  · refine hex 0 (p / 128) (p % 128) ?_ (by omega) hs ?_
    · show p % 128 < 128; omega
    · show 0 * 16 + p / 128 * 128 + p % 128 = p; omega
  · rcases Nat.lt_or_ge (p % 128) 64 with h | h
    · refine hex 0 (p / 128) (p % 128) h (by omega) hs ?_
      show 0 * 16 + p / 128 * 128 + p % 128 = p; omega
    · refine hex 1 (p / 128) (p % 128 - 64) ?_ (by omega) hs ?_
      · show p % 128 - 64 < 64; omega
      · show 4 * 16 + p / 128 * 128 + (p % 128 - 64) = p; omega
  · have h : p % 128 / 32 = 0 ∨ p % 128 / 32 = 1 ∨ p % 128 / 32 = 2 ∨ p % 128 / 32 = 3 := by omega
    rcases h with h | h | h | h
    · refine hex 0 (p / 128) (p % 32) (show p % 32 < 32 by omega) (by omega) hs ?_
      show 0 * 16 + p / 128 * 128 + p % 32 = p; omega
    · refine hex 2 (p / 128) (p % 32) (show p % 32 < 32 by omega) (by omega) hs ?_
      show 2 * 16 + p / 128 * 128 + p % 32 = p; omega
    · refine hex 1 (p / 128) (p % 32) (show p % 32 < 32 by omega) (by omega) hs ?_
      show 4 * 16 + p / 128 * 128 + p % 32 = p; omega
    · refine hex 3 (p / 128) (p % 32) (show p % 32 < 32 by omega) (by omega) hs ?_
      show 6 * 16 + p / 128 * 128 + p % 32 = p; omega
  · have h : p % 128 / 16 = 0 ∨ p % 128 / 16 = 1 ∨ p % 128 / 16 = 2 ∨ p % 128 / 16 = 3 ∨ p % 128 / 16 = 4 ∨
        p % 128 / 16 = 5 ∨ p % 128 / 16 = 6 ∨ p % 128 / 16 = 7 := by omega
    have hl : p % 16 < lanes 64 := show p % 16 < 16 by omega
    rcases h with h | h | h | h | h | h | h | h
    · exact hex 0 (p / 128) (p % 16) hl (by omega) hs (show 0 * 16 + p / 128 * 128 + p % 16 = p by omega)
    · exact hex 4 (p / 128) (p % 16) hl (by omega) hs (show 1 * 16 + p / 128 * 128 + p % 16 = p by omega)
    · exact hex 2 (p / 128) (p % 16) hl (by omega) hs (show 2 * 16 + p / 128 * 128 + p % 16 = p by omega)
    · exact hex 6 (p / 128) (p % 16) hl (by omega) hs (show 3 * 16 + p / 128 * 128 + p % 16 = p by omega)
    · exact hex 1 (p / 128) (p % 16) hl (by omega) hs (show 4 * 16 + p / 128 * 128 + p % 16 = p by omega)
    · exact hex 5 (p / 128) (p % 16) hl (by omega) hs (show 5 * 16 + p / 128 * 128 + p % 16 = p by omega)
    · exact hex 3 (p / 128) (p % 16) hl (by omega) hs (show 6 * 16 + p / 128 * 128 + p % 16 = p by omega)
    · exact hex 7 (p / 128) (p % 16) hl (by omega) hs (show 7 * 16 + p / 128 * 128 + p % 16 = p by omega)

/-- The words of a lane. -/
def laneWord (T W : Nat) (input : List Nat) (lane k : Nat) : Nat :=
  if W = T then input.getD (flIndex k lane) 0
  else word T (laneNum W (fun r => input.getD (flIndex r lane) 0) T) k

theorem packLane_eq (T W : Nat) (input : List Nat) (lane : Nat) (hW : W ≤ T) (hT : 0 < T) :
    packLane T W input lane = (List.range W).map fun k => (lanes T * k + lane, laneWord T W input lane k) := by
  unfold packLane
  by_cases h : W = T
  · subst h
    simp only [if_true, laneWord]
  · rw [if_neg h, packRows_eq T W lane input (by omega) T 0 0 (by intro j; simp [laneNum])]
    simp only [Nat.zero_mul, Nat.zero_div, Nat.zero_add, Nat.sub_zero, laneWord, if_neg h]
    rw [Nat.mul_div_cancel_left _ hT, List.range_eq_range']

theorem word_lanes {T : Nat} (hT : Word T) : 0 < T ∧ 0 < lanes T ∧ lanes T * T = 1024 := by
  rcases hT with rfl | rfl | rfl | rfl <;> decide

theorem packed_len {T : Nat} (hT : Word T) (W : Nat) : 1024 * W / T = lanes T * W := by
  obtain ⟨h1, h2, h3⟩ := word_lanes hT
  rw [← h3, Nat.mul_assoc, Nat.mul_comm T W, ← Nat.mul_assoc, Nat.mul_div_cancel _ h1]

/-- What packing gives, element by element. -/
theorem pack_eq {T : Nat} (hT : Word T) (W : Nat) (hW0 : 0 < W) (hW : W ≤ T) (input : List Nat) :
    ∃ packed, pack T W input = some packed ∧ packed.length = lanes T * W ∧
      ∀ lane k, lane < lanes T → k < W → packed.getD (lanes T * k + lane) 0 = laneWord T W input lane k := by
  obtain ⟨h1, h2, h3⟩ := word_lanes hT
  have hdm : ∀ lane k, lane < lanes T → (lanes T * k + lane) / lanes T = k ∧ (lanes T * k + lane) % lanes T = lane := by
    intro lane k hl
    constructor
    · rw [Nat.mul_add_div h2, Nat.div_eq_of_lt hl, Nat.add_zero]
    · rw [Nat.mul_add_mod, Nat.mod_eq_of_lt hl]
  refine ⟨_, by rw [pack, if_pos ⟨hW0, hW⟩], ?_, ?_⟩
  · rw [assign_length, List.length_replicate, packed_len hT]
  · intro lane k hl hk
    have hlt : lanes T * k + lane < lanes T * W := by
      calc lanes T * k + lane < lanes T * k + lanes T := by omega
        _ = lanes T * (k + 1) := by rw [Nat.mul_add, Nat.mul_one]
        _ ≤ lanes T * W := Nat.mul_le_mul_left _ hk
    have := assign_get (fun p => laneWord T W input (p % lanes T) (p / lanes T))
      ((List.range (lanes T)).flatMap (packLane T W input)) (List.replicate (1024 * W / T) 0) (lanes T * k + lane) ?_
      (Or.inr ⟨(lanes T * k + lane, laneWord T W input lane k), ?_, rfl⟩) (by
        rw [List.length_replicate, packed_len hT]; exact hlt)
    · rw [this.2, (hdm lane k hl).1, (hdm lane k hl).2]
    · intro w hw
      obtain ⟨lane', hl', hw⟩ := List.mem_flatMap.mp hw
      rw [packLane_eq T W input lane' hW h1] at hw
      obtain ⟨k', _, rfl⟩ := List.mem_map.mp hw
      rw [List.mem_range] at hl'
      simp only
      rw [(hdm lane' k' hl').1, (hdm lane' k' hl').2]
    · refine List.mem_flatMap.mpr ⟨lane, List.mem_range.mpr hl, ?_⟩
      rw [packLane_eq T W input lane hW h1]
      exact List.mem_map.mpr ⟨k, List.mem_range.mpr hk, rfl⟩

theorem unpackLane_eq (T W : Nat) (input packed : List Nat) (lane : Nat) (hW0 : 0 < W) (hW : W ≤ T)
    (hsmall : ∀ x ∈ input, x < 2 ^ W)
    (hp : ∀ k, k < W → packed.getD (lanes T * k + lane) 0 = laneWord T W input lane k) :
    unpackLane T W packed lane = (List.range T).map fun r => (flIndex r lane, input.getD (flIndex r lane) 0) := by
  unfold unpackLane
  by_cases h : W = T
  · subst h
    rw [if_pos rfl]
    apply List.map_congr_left
    intro r hr
    rw [hp r (List.mem_range.mp hr), laneWord, if_pos rfl]
  · rw [if_neg h]
    have hp' : ∀ k, k < W → packed.getD (lanes T * k + lane) 0 =
        word T (laneNum W (fun r => input.getD (flIndex r lane) 0) T) k := by
      intro k hk
      rw [hp k hk, laneWord, if_neg h]
    have h0 := hp' 0 hW0
    rw [Nat.mul_zero, Nat.zero_add] at h0
    rw [unpackRows_eq T W lane packed _ (by omega) hp' T 0 _ (by omega) (fun _ => by
      rw [h0, Nat.zero_mul, Nat.zero_div])]
    rw [List.range_eq_range']
    apply List.map_congr_left
    intro r _
    congr 1
    apply Nat.mod_eq_of_lt
    rw [List.getD_eq_getElem?_getD]
    cases hg : input[flIndex r lane]? with
    | none => simpa using Nat.two_pow_pos W
    | some x => simpa using hsmall x (List.mem_of_getElem? hg)

/-- FastLanes: 1024 values of at most `W` bits are unpacked as they were packed. -/
theorem unpack_pack_words {T : Nat} (hT : Word T) (W : Nat) (hW0 : 0 < W) (hW : W ≤ T) (input : List Nat)
    (hlen : input.length = 1024) (hsmall : ∀ x ∈ input, x < 2 ^ W) :
    ∃ packed, pack T W input = some packed ∧ packed.length = lanes T * W ∧ unpack T W packed = some input := by
  obtain ⟨packed, h1, h2, h3⟩ := pack_eq hT W hW0 hW input
  refine ⟨packed, h1, h2, ?_⟩
  rw [unpack, if_pos ⟨hW0, hW⟩]
  congr 1
  have hlane : ∀ lane, lane < lanes T → unpackLane T W packed lane =
      (List.range T).map fun r => (flIndex r lane, input.getD (flIndex r lane) 0) := fun lane hl =>
    unpackLane_eq T W input packed lane hW0 hW hsmall (fun k hk => h3 lane k hl hk)
  rw [assign_eq (fun p => input.getD p 0)]
  · rw [List.length_replicate]
    refine List.ext_getElem (by rw [List.length_map, List.length_range, hlen]) ?_
    intro i hi1 hi2
    rw [List.getElem_map, List.getElem_range, List.getD_eq_getElem?_getD, List.getElem?_eq_getElem hi2]
    rfl
  · intro w hw
    obtain ⟨lane, hl, hw⟩ := List.mem_flatMap.mp hw
    rw [hlane lane (List.mem_range.mp hl)] at hw
    obtain ⟨r, _, rfl⟩ := List.mem_map.mp hw
    rfl
  · intro p hp
    rw [List.length_replicate] at hp
    obtain ⟨lane, hl, row, hr, hidx⟩ := flIndex_cover T hT p hp
    refine ⟨(flIndex row lane, input.getD (flIndex row lane) 0), List.mem_flatMap.mpr ⟨lane, List.mem_range.mpr hl, ?_⟩, hidx⟩
    rw [hlane lane hl]
    exact List.mem_map.mpr ⟨row, List.mem_range.mpr hr, rfl⟩

end Verif.Mini
