import Verif.Bitpack.Move

/-! # Lemmas about pages of bitpacked numbers -/

namespace Verif.Bitpack

/-- A value as it is given back: of `u` bits. -/
def widen (u : Nat) (signed : Bool) (v : List Bool) : List Bool := v ++ List.replicate (u - v.length) (signed && v.getLast?.getD false)

/-- The bits of one value in a page. -/
theorem page_value (b : Nat) (pad : List Bool) : ∀ (vals : List (List Bool)), (∀ v ∈ vals, v.length = b) → ∀ i v, vals[i]? = some v →
    ((vals.flatten ++ pad).drop (i * b)).take b = v := by
  intro vals
  induction vals with
  | nil => intro _ i v h; simp at h
  | cons w vals ih =>
    intro hl i v h
    have hw : w.length = b := hl w List.mem_cons_self
    cases i with
    | zero =>
      simp only [List.getElem?_cons_zero, Option.some.injEq] at h
      subst h
      simp only [Nat.zero_mul, List.drop_zero, List.flatten_cons, List.append_assoc]
      rw [← hw, List.take_left]
    | succ i =>
      rw [List.getElem?_cons_succ] at h
      have := ih (fun v hv => hl v (List.mem_cons_of_mem _ hv)) i v h
      rw [List.flatten_cons, List.append_assoc, show (i + 1) * b = w.length + i * b by rw [Nat.succ_mul, hw, Nat.add_comm], ← List.drop_drop, List.drop_left]
      exact this

/-- The number of bits of the values. -/
theorem flatten_length (b : Nat) : ∀ (vals : List (List Bool)), (∀ v ∈ vals, v.length = b) → vals.flatten.length = vals.length * b := by
  intro vals
  induction vals with
  | nil => intro _; simp
  | cons w vals ih =>
    intro hl
    rw [List.flatten_cons, List.length_append, ih (fun v hv => hl v (List.mem_cons_of_mem _ hv)), hl w List.mem_cons_self, List.length_cons, Nat.succ_mul, Nat.add_comm]

/-- Numbers about a buffer: `S` and `E` are the bits at which its rows start and end. -/
theorem len_scheduleRange (b : Nat) (page : List Bool) (s e : Nat) (hse : s ≤ e) (hlen : e * b ≤ page.length) (h8 : page.length % 8 = 0) :
    (scheduleRange b page (s, e)).bits.length = 8 * ((if e * b % 8 ≠ 0 then e * b / 8 + 1 else e * b / 8) - s * b / 8) := by
  have hm : s * b ≤ e * b := Nat.mul_le_mul_right b hse
  unfold scheduleRange
  simp only [List.length_take, List.length_drop]
  split <;> omega

/-- A buffer has the rows of its range. -/
theorem rowsInBuffer_scheduleRange (b : Nat) (hb : 0 < b) (page : List Bool) (s e : Nat) (hse : s ≤ e) (hlen : e * b ≤ page.length) (h8 : page.length % 8 = 0) :
    rowsInBuffer (scheduleRange b page (s, e)).len b (scheduleRange b page (s, e)).start (scheduleRange b page (s, e)).stop = e - s := by
  have hm : s * b ≤ e * b := Nat.mul_le_mul_right b hse
  have hl := len_scheduleRange b page s e hse hlen h8
  have hd : (e * b - s * b) / b = e - s := by rw [← Nat.sub_mul, Nat.mul_div_cancel _ hb]
  unfold Buf.len
  rw [hl]
  unfold rowsInBuffer scheduleRange
  simp only
  by_cases h : e * b % 8 ≠ 0
  · rw [if_pos h, if_pos h]
    simp only
    rw [← hd]
    congr 1
    omega
  · rw [if_neg h, if_neg h]
    simp only
    rw [← hd]
    congr 1
    omega

/-- The bits of one value in a buffer. -/
theorem buffer_value (b : Nat) (page : List Bool) (s e i : Nat) (hse : s ≤ i) (hie : i < e) :
    ((scheduleRange b page (s, e)).bits.drop ((scheduleRange b page (s, e)).start + (i - s) * b)).take b = (page.drop (i * b)).take b := by
  have h1 : s * b ≤ i * b := Nat.mul_le_mul_right b hse
  have h2 : i * b + b ≤ e * b := by rw [← Nat.succ_mul]; exact Nat.mul_le_mul_right b hie
  have h3 : (i - s) * b = i * b - s * b := Nat.sub_mul ..
  unfold scheduleRange
  simp only
  rw [h3, List.drop_take, List.take_take, List.drop_drop]
  congr 1
  · split <;> omega
  · congr 1
    omega

/-- The rows of one buffer, from row `i` on. -/
theorem readRows_scheduleRange (b u : Nat) (hb : 0 < b) (hbu : b ≤ u) (hu : u % 8 = 0) (signed : Bool) (vals : List (List Bool)) (pad : List Bool) (hv : ∀ v ∈ vals, v.length = b)
    (h8 : (vals.flatten ++ pad).length % 8 = 0) (s e : Nat) (he : e ≤ vals.length) : ∀ n i, s ≤ i → i < e →
    readRows b u signed (scheduleRange b (vals.flatten ++ pad) (s, e)) n ((scheduleRange b (vals.flatten ++ pad) (s, e)).start + (i - s) * b) =
      some ((((vals.drop i).take (e - i)).take n).map (widen u signed)) := by
  have hlen : e * b ≤ (vals.flatten ++ pad).length := by
    rw [List.length_append, flatten_length b vals hv]
    exact Nat.le_trans (Nat.mul_le_mul_right b he) (Nat.le_add_right _ _)
  intro n
  induction n with
  | zero => intro i _ _; simp [readRows]
  | succ n ih =>
    intro i hsi hie
    have h1 : s * b ≤ i * b := Nat.mul_le_mul_right b hsi
    have h2 : i * b + b ≤ e * b := by rw [← Nat.succ_mul]; exact Nat.mul_le_mul_right b hie
    have h3 : (i - s) * b = i * b - s * b := Nat.sub_mul ..
    have hl := len_scheduleRange b (vals.flatten ++ pad) s e (by omega) hlen h8
    have hi : i < vals.length := by omega
    have hget : vals[i]? = some vals[i] := List.getElem?_eq_getElem hi
    have hval : ((scheduleRange b (vals.flatten ++ pad) (s, e)).bits.drop ((scheduleRange b (vals.flatten ++ pad) (s, e)).start + (i - s) * b)).take b = vals[i] := by
      rw [buffer_value b _ s e i hsi hie, page_value b pad vals hv i _ hget]
    have hvl : vals[i].length = b := hv _ (List.getElem_mem hi)
    have hst : (scheduleRange b (vals.flatten ++ pad) (s, e)).start = s * b % 8 := rfl
    have hstop : (scheduleRange b (vals.flatten ++ pad) (s, e)).stop = if e * b % 8 ≠ 0 then some (e * b % 8) else none := rfl
    have hneg : (scheduleRange b (vals.flatten ++ pad) (s, e)).bits[(scheduleRange b (vals.flatten ++ pad) (s, e)).start + (i - s) * b + b - 1]? = vals[i].getLast? := by
      rw [List.getLast?_eq_getElem?, hvl, ← hval, List.getElem?_take_of_lt (by omega), List.getElem?_drop]
      congr 1
      omega
    have hrow : (vals.drop i).take (e - i) = vals[i] :: (vals.drop (i + 1)).take (e - (i + 1)) := by
      rw [List.drop_eq_getElem_cons hi, show e - i = (e - (i + 1)) + 1 by omega, List.take_succ_cons]
    have hlast : ∃ x, vals[i].getLast? = some x := by
      cases h : vals[i].getLast? with
      | some x => exact ⟨x, rfl⟩
      | none =>
        rw [List.getLast?_eq_none_iff] at h
        rw [h] at hvl
        simp at hvl
        omega
    obtain ⟨x, hx⟩ := hlast
    rw [hrow, List.take_succ_cons, List.map_cons]
    unfold readRows
    have hin : ((scheduleRange b (vals.flatten ++ pad) (s, e)).start + (i - s) * b) / 8 < (scheduleRange b (vals.flatten ++ pad) (s, e)).len := by
      unfold Buf.len
      rw [hl, hst, h3]
      split <;> omega
    have hfit : (scheduleRange b (vals.flatten ++ pad) (s, e)).start + (i - s) * b + b ≤ 8 * (scheduleRange b (vals.flatten ++ pad) (s, e)).len := by
      unfold Buf.len
      rw [hl, hst, h3]
      split <;> omega
    rw [if_pos hin, isNegative_eq b hb, hneg, hx]
    simp only
    rw [moveValue_eq b u hb hbu hu _ _ _ hfit, hval]
    simp only
    have hw : vals[i] ++ List.replicate (u - b) (signed && x) = widen u signed vals[i] := by
      unfold widen
      rw [hvl, hx]
      rfl
    rw [hw]
    by_cases hlt : i + 1 < e
    · have h4 : (i + 1) * b + b ≤ e * b := by rw [← Nat.succ_mul]; exact Nat.mul_le_mul_right b hlt
      have h5 : (i + 1) * b = i * b + b := Nat.succ_mul ..
      have hend : ended (scheduleRange b (vals.flatten ++ pad) (s, e)) ((scheduleRange b (vals.flatten ++ pad) (s, e)).start + (i - s) * b + b) = false := by
        unfold ended Buf.len
        rw [hl, hst, hstop, h3]
        by_cases h : e * b % 8 ≠ 0
        · rw [if_pos h, if_pos h]
          simp only [Bool.and_eq_false_iff, beq_eq_false_iff_ne, decide_eq_false_iff_not]
          omega
        · rw [if_neg h]
      rw [hend]
      simp only [Bool.false_eq_true, if_false]
      have := ih (i + 1) (by omega) hlt
      rw [show (i + 1 - s) * b = (i - s) * b + b by rw [show i + 1 - s = (i - s) + 1 by omega, Nat.succ_mul], ← Nat.add_assoc] at this
      rw [this]
      rfl
    · have hie' : e = i + 1 := by omega
      have hE : e * b = i * b + b := by rw [hie', Nat.succ_mul]
      have hrest : ((vals.drop (i + 1)).take (e - (i + 1))).take n = [] := by simp [hie']
      rw [hrest]
      split
      · rfl
      · rename_i hne
        have hstop' : e * b % 8 = 0 := by
          false_or_by_contra
          rename_i h
          apply hne
          unfold ended Buf.len
          rw [hl, hst, hstop, h3, if_pos h, if_pos h]
          simp only [Bool.and_eq_true, beq_iff_eq, decide_eq_true_eq]
          omega
        have hout : ¬ ((scheduleRange b (vals.flatten ++ pad) (s, e)).start + (i - s) * b + b) / 8 < (scheduleRange b (vals.flatten ++ pad) (s, e)).len := by
          unfold Buf.len
          rw [hl, hst, h3]
          simp only [hstop']
          simp only [ne_eq, not_true_eq_false, if_false]
          omega
        have : readRows b u signed (scheduleRange b (vals.flatten ++ pad) (s, e)) n ((scheduleRange b (vals.flatten ++ pad) (s, e)).start + (i - s) * b + b) = some [] := by
          cases n with
          | zero => rfl
          | succ n =>
            unfold readRows
            rw [if_neg hout]
        rw [this]
        rfl

end Verif.Bitpack
