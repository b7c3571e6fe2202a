import Verif.Bitpack.Model

/-! # Moving the bits of one value -/

namespace Verif.Bitpack

/-- The state while the bits of the value at `pos` are moved. -/
structure Inv (b : Nat) (buf : Buf) (pos : Nat) (m : Move) : Prop where
  src : 8 * m.srcIdx + m.srcOffset = pos + m.written
  srcLt : m.srcOffset < 8
  dstEq : 8 * m.dstIdx + m.dstOffset = m.written
  dstLt : m.dstOffset < 8
  le : m.written ≤ b
  mask : ∀ i, m.mask i = decide (i + m.written < b)
  curr : m.written < b → ∀ i, m.srcOffset ≤ i → m.curr i = (buf.byte m.srcIdx i && decide (8 * m.srcIdx + i < pos + b))
  dst : ∀ g, m.dst g = (decide (g < m.written) && buf.bits.getD (pos + g) false)

theorem inv_firstMove (b : Nat) (hb : 0 < b) (buf : Buf) (pos : Nat) : Inv b buf pos (firstMove b buf pos) := by
  refine ⟨?_, ?_, rfl, by simp [firstMove], by simp [firstMove], fun i => rfl, ?_, fun g => by simp [firstMove]⟩
  · simp only [firstMove]
    omega
  · simp only [firstMove]
    omega
  · intro _ i hi
    have hi' : pos % 8 ≤ i := hi
    show (buf.byte (pos / 8) i && (decide (pos % 8 ≤ i) && decide (i - pos % 8 < b))) = (buf.byte (pos / 8) i && decide (8 * (pos / 8) + i < pos + b))
    congr 1
    rw [decide_eq_true hi', Bool.true_and, decide_eq_decide]
    omega

/-- The bits that a step adds. -/
theorem addend_eq (b : Nat) (buf : Buf) (pos : Nat) (m : Move) (h : Inv b buf pos m) (hlt : m.written < b) (j : Nat) :
    addend m j = (decide (m.dstOffset ≤ j) && decide (j < m.dstOffset + min (min (b - m.written) (8 - m.srcOffset)) (8 - m.dstOffset)) &&
      buf.bits.getD (pos + (8 * m.dstIdx + j)) false) := by
  have h1 := h.src
  have h2 := h.dstEq
  have h3 := h.srcLt
  have h4 := h.dstLt
  unfold addend
  by_cases hj : m.dstOffset ≤ j
  · rw [h.curr hlt _ (by omega)]
    unfold Buf.byte
    rw [show 8 * m.srcIdx + (j - m.dstOffset + m.srcOffset) = pos + (8 * m.dstIdx + j) by omega]
    rw [decide_eq_true hj]
    by_cases hj2 : j < m.dstOffset + min (min (b - m.written) (8 - m.srcOffset)) (8 - m.dstOffset)
    · have e1 : j < 8 := by omega
      have e2 : j - m.dstOffset + m.srcOffset < 8 := by omega
      have e3 : pos + (8 * m.dstIdx + j) < pos + b := by omega
      rw [decide_eq_true hj2, decide_eq_true e1, decide_eq_true e2, decide_eq_true e3]
      simp
    · rw [decide_eq_false hj2]
      by_cases e1 : j < 8
      · by_cases e2 : j - m.dstOffset + m.srcOffset < 8
        · have e3 : ¬ pos + (8 * m.dstIdx + j) < pos + b := by omega
          rw [decide_eq_false e3]
          simp
        · rw [decide_eq_false e2]
          simp
      · rw [decide_eq_false e1]
        simp
  · rw [decide_eq_false hj]
    simp

/-- Nothing of what a step adds is there already. -/
theorem no_carry (b : Nat) (buf : Buf) (pos : Nat) (m : Move) (h : Inv b buf pos m) (hlt : m.written < b) :
    (List.range 8).any (fun j => m.dst (8 * m.dstIdx + j) && addend m j) = false := by
  rw [List.any_eq_false]
  intro j _
  rw [h.dst, addend_eq b buf pos m h hlt]
  have h2 := h.dstEq
  by_cases hj : m.dstOffset ≤ j
  · have : ¬ 8 * m.dstIdx + j < m.written := by omega
    rw [decide_eq_false this]
    simp
  · rw [decide_eq_false hj]
    simp

/-- The destination after a step. -/
theorem dst_step (b : Nat) (buf : Buf) (pos : Nat) (m : Move) (h : Inv b buf pos m) (hlt : m.written < b) (g : Nat) :
    (m.dst g || (decide (8 * m.dstIdx ≤ g) && addend m (g - 8 * m.dstIdx))) =
      (decide (g < m.written + min (min (b - m.written) (8 - m.srcOffset)) (8 - m.dstOffset)) && buf.bits.getD (pos + g) false) := by
  have h2 := h.dstEq
  rw [h.dst, addend_eq b buf pos m h hlt]
  by_cases h1 : 8 * m.dstIdx ≤ g
  · rw [decide_eq_true h1, show 8 * m.dstIdx + (g - 8 * m.dstIdx) = g by omega]
    by_cases hw : g < m.written
    · have e : g < m.written + min (min (b - m.written) (8 - m.srcOffset)) (8 - m.dstOffset) := by omega
      have e2 : ¬ m.dstOffset ≤ g - 8 * m.dstIdx := by omega
      rw [decide_eq_true hw, decide_eq_true e, decide_eq_false e2]
      simp
    · have e2 : m.dstOffset ≤ g - 8 * m.dstIdx := by omega
      rw [decide_eq_false hw, decide_eq_true e2]
      simp only [Bool.false_and, Bool.false_or, Bool.true_and]
      congr 1
      rw [decide_eq_decide]
      omega
  · have hw : g < m.written := by omega
    have e : g < m.written + min (min (b - m.written) (8 - m.srcOffset)) (8 - m.dstOffset) := by omega
    rw [decide_eq_false h1, decide_eq_true hw, decide_eq_true e]
    simp

/-- All bits of the value are moved. -/
theorem moveBits_inv (b : Nat) (buf : Buf) (pos : Nat) (hin : pos + b ≤ 8 * buf.len) : ∀ fuel m, Inv b buf pos m → b - m.written ≤ fuel →
    ∃ m', moveBits b buf fuel m = some m' ∧ Inv b buf pos m' ∧ m'.written = b := by
  intro fuel
  induction fuel with
  | zero =>
    intro m h hf
    exact ⟨m, rfl, h, Nat.le_antisymm h.le (by omega)⟩
  | succ fuel ih =>
    intro m h hf
    unfold moveBits
    by_cases hlt : m.written < b
    · rw [if_pos hlt, no_carry b buf pos m h hlt]
      simp only [Bool.false_eq_true, if_false]
      have hd := dst_step b buf pos m h hlt
      have h1 := h.src
      have h2 := h.dstEq
      have h3 := h.srcLt
      have h4 := h.dstLt
      have h5 := h.le
      generalize hn : min (min (b - m.written) (8 - m.srcOffset)) (8 - m.dstOffset) = n at hd ⊢
      have hn1 : 0 < n := by omega
      have hn2 : n ≤ b - m.written := by omega
      have hn3 : n ≤ 8 - m.srcOffset := by omega
      have hn4 : n ≤ 8 - m.dstOffset := by omega
      have hm : ∀ i, m.mask (i + n) = decide (i + (m.written + n) < b) := by
        intro i
        rw [h.mask, decide_eq_decide]
        omega
      have hdi : 8 * (if m.dstOffset + n = 8 then m.dstIdx + 1 else m.dstIdx) + (if m.dstOffset + n = 8 then 0 else m.dstOffset + n) = m.written + n := by
        split <;> omega
      have hdl : (if m.dstOffset + n = 8 then 0 else m.dstOffset + n) < 8 := by
        split <;> omega
      by_cases hs : m.srcOffset + n = 8
      · rw [if_pos hs]
        by_cases he : m.srcIdx + 1 = buf.len
        · rw [if_pos he]
          have hw : m.written + n = b := by omega
          exact ⟨_, rfl, ⟨by simp only; omega, by simp only; omega, hdi, hdl, by simp only; omega, hm, fun hc => absurd hc (by simp only; omega), hd⟩, hw⟩
        · rw [if_neg he]
          apply ih
          · refine ⟨by simp only; omega, by simp only; omega, hdi, hdl, by simp only; omega, hm, ?_, hd⟩
            intro _ i _
            simp only
            rw [hm]
            congr 1
            rw [decide_eq_decide]
            omega
          · simp only
            omega
      · rw [if_neg hs]
        apply ih
        · refine ⟨by simp only; omega, by simp only; omega, hdi, hdl, by simp only; omega, hm, ?_, hd⟩
          intro _ i hi
          simp only at hi ⊢
          exact h.curr hlt i (by omega)
        · simp only
          omega
    · rw [if_neg hlt]
      exact ⟨m, rfl, h, Nat.le_antisymm h.le (by omega)⟩

/-- One value: its bits, then copies of the sign up to its width. -/
theorem moveValue_eq (b u : Nat) (hb : 0 < b) (hbu : b ≤ u) (hu : u % 8 = 0) (negative : Bool) (buf : Buf) (pos : Nat) (hin : pos + b ≤ 8 * buf.len) :
    moveValue b u negative buf pos = some ((buf.bits.drop pos).take b ++ List.replicate (u - b) negative, pos + b) := by
  obtain ⟨m, hm, h, hw⟩ := moveBits_inv b buf pos hin b _ (inv_firstMove b hb buf pos) (by omega)
  have h1 := h.src
  have h2 := h.dstEq
  have h4 := h.dstLt
  have hlen : pos + b ≤ buf.bits.length := by
    unfold Buf.len at hin
    omega
  unfold moveValue
  rw [hm]
  simp only
  have hpad : (pad b u negative m).2 = u / 8 ∧ ∀ g, g < u → (pad b u negative m).1 g = if g < b then buf.bits.getD (pos + g) false else negative := by
    unfold pad
    by_cases hub : u = b
    · rw [if_pos hub]
      refine ⟨by simp only; omega, fun g hg => ?_⟩
      have hd0 : m.dstOffset = 0 := by omega
      simp only [hd0]
      rw [h.dst, hw, if_pos (by omega), decide_eq_true (show g < b by omega)]
      simp
    · rw [if_neg hub]
      have hnext : m.dstIdx + u / 8 - (b + 7) / 8 + (if b % 8 = 0 then 0 else 1) = u / 8 := by split <;> omega
      refine ⟨hnext, fun g hg => ?_⟩
      simp only [hnext]
      rw [h.dst, hw]
      by_cases hg' : g < b
      · rw [if_pos hg', decide_eq_true hg']
        by_cases h0 : 0 < m.dstOffset
        · have e1 : ¬ 8 * m.dstIdx + m.dstOffset ≤ g := by omega
          have e2 : ¬ 8 * (m.dstIdx + 1) ≤ g := by omega
          rw [decide_eq_true h0, decide_eq_false e1, decide_eq_false e2]
          cases negative <;> simp
        · have e1 : ¬ 8 * m.dstIdx ≤ g := by omega
          have e2 : ¬ 8 * (m.dstIdx + 1) ≤ g := by omega
          rw [decide_eq_false h0, decide_eq_false e1, decide_eq_false e2]
          cases negative <;> simp
      · rw [if_neg hg', decide_eq_false hg']
        cases negative with
        | false => simp
        | true =>
          have e0 : g < 8 * (u / 8) := by omega
          by_cases h0 : 0 < m.dstOffset
          · have e1 : 8 * m.dstIdx + m.dstOffset ≤ g := by omega
            by_cases e2 : g < 8 * m.dstIdx + 8
            · simp [h0, e1, e2]
            · have e3 : 8 * (m.dstIdx + 1) ≤ g := by omega
              simp [h0, e1, e0, e3]
          · have e1 : 8 * m.dstIdx ≤ g := by omega
            by_cases e2 : g < 8 * m.dstIdx + 8
            · simp [h0, e1, e2]
            · have e3 : 8 * (m.dstIdx + 1) ≤ g := by omega
              simp [h0, e0, e3]
  obtain ⟨hp1, hp2⟩ := hpad
  rw [hp1, Option.some.injEq, Prod.mk.injEq]
  refine ⟨?_, by omega⟩
  apply List.ext_getElem
  · simp only [List.length_map, List.length_range, List.length_append, List.length_take, List.length_drop, List.length_replicate]
    omega
  · intro g hg1 hg2
    simp only [List.length_map, List.length_range] at hg1
    simp only [List.getElem_map, List.getElem_range]
    rw [hp2 g (by omega)]
    by_cases hg : g < b
    · rw [if_pos hg, List.getElem_append_left (by simp only [List.length_take, List.length_drop]; omega)]
      simp only [List.getElem_take, List.getElem_drop]
      rw [List.getD_eq_getElem?_getD, List.getElem?_eq_getElem (by omega), Option.getD_some]
    · rw [if_neg hg, List.getElem_append_right (by simp only [List.length_take, List.length_drop]; omega)]
      simp

/-- The sign. -/
theorem isNegative_eq (b : Nat) (hb : 0 < b) (buf : Buf) (pos : Nat) : isNegative b buf pos = buf.bits[pos + b - 1]? := by
  unfold isNegative
  simp only
  split
  · rw [show 8 * (pos / 8 + (pos % 8 + b) / 8 - 1) + 7 = pos + b - 1 by omega]
  · rw [show 8 * (pos / 8 + (pos % 8 + b) / 8) + ((pos % 8 + b) % 8 - 1) = pos + b - 1 by omega]

end Verif.Bitpack
