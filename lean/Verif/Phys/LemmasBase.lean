import Verif.Phys.Spec
import Verif.ListCol.LemmasPages
/-! Lists of pieces, bitmaps, buffers. -/
namespace Verif.Phys
open Verif.ListCol

variable {α : Type}

theorem rows_nil : rows [] = 0 := rfl

theorem wanted_cons (xs : List α) (r : Rng) (rs : List Rng) : wanted xs (r :: rs) = slice xs r ++ wanted xs rs := by
  simp [wanted]

theorem inB_cons {n : Nat} {r : Rng} {rs : List Rng} (h : InB n (r :: rs)) : (r.1 < r.2 ∧ r.2 ≤ n) ∧ InB n rs :=
  ⟨h r (by simp), fun q hq => h q (by simp [hq])⟩

theorem length_wanted (xs : List α) (rs : List Rng) (h : InB xs.length rs) : (wanted xs rs).length = rows rs := by
  induction rs with
  | nil => rfl
  | cons r rs ih =>
    have ⟨h1, h2⟩ := inB_cons h
    rw [wanted_cons, rows_cons, List.length_append, length_slice _ _ h1.2, ih h2]

theorem slice_append (xs ys : List α) (a b : Nat) (h : a ≤ xs.length) :
    slice (xs ++ ys) (a, b) = slice xs (a, b) ++ slice ys (0, b - xs.length) := by
  simp only [slice, Nat.sub_zero, List.drop_zero]
  rw [List.drop_append_of_le_length h, List.take_append, List.length_drop]
  have : b - a - (xs.length - a) = b - xs.length := by omega
  rw [this]

theorem slice_slice (xs : List α) (a b c d : Nat) (h : d ≤ b - a) :
    slice (slice xs (a, b)) (c, d) = slice xs (a + c, a + d) := by
  simp only [slice]
  rw [List.drop_take, List.drop_drop, List.take_take]
  congr 1
  · omega

theorem length_slice' (xs : List α) (a b : Nat) : (slice xs (a, b)).length = min (b - a) (xs.length - a) := by
  simp [slice]

theorem slice_zero_len (xs : List α) (a b : Nat) (h : b ≤ a) : slice xs (a, b) = [] := by
  simp [slice, Nat.sub_eq_zero_of_le h]

/-! ### chunk -/

theorem chunk_zero (d : Nat) (xs : List α) : chunk d 0 xs = [] := rfl

theorem length_chunk (d n : Nat) (xs : List α) : (chunk d n xs).length = n := by simp [chunk]

theorem chunk_append (d n m : Nat) (xs ys : List α) (h : xs.length = n * d) :
    chunk d (n + m) (xs ++ ys) = chunk d n xs ++ chunk d m ys := by
  unfold chunk
  rw [List.range_add, List.map_append]
  congr 1
  · apply List.map_congr_left
    intro i hi
    have hi : i < n := by simpa using hi
    apply slice_append_left
    have := Nat.mul_le_mul_right d (show i + 1 ≤ n by omega)
    rw [Nat.add_mul] at this
    simp only; omega
  · rw [List.map_map]
    apply List.map_congr_left
    intro i _
    simp only [Function.comp]
    rw [slice_append_right _ _ _ (by rw [h]; simp only; exact Nat.mul_le_mul_right d (by omega))]
    simp only [h]
    congr 1
    rw [Nat.add_mul]
    simp only [Prod.mk.injEq]
    constructor <;> omega

theorem slice_chunk (d n : Nat) (xs : List α) (a b : Nat) (h : b ≤ n) :
    slice (chunk d n xs) (a, b) = chunk d (b - a) (slice xs (a * d, b * d)) := by
  unfold chunk
  rw [slice_map]
  have e : slice (List.range n) (a, b) = (List.range (b - a)).map (a + ·) := by
    apply List.ext_getElem
    · simp [slice]; omega
    · intro i h1 h2
      simp [slice]
  rw [e, List.map_map]
  apply List.map_congr_left
  intro i hi
  have hi : i < b - a := by simpa using hi
  simp only [Function.comp]
  have h1 := Nat.mul_le_mul_right d (show i + 1 ≤ b - a by omega)
  rw [Nat.add_mul, Nat.sub_mul] at h1
  rw [slice_slice _ _ _ _ _ (by omega), Nat.add_mul]
  congr 1
  simp only [Prod.mk.injEq, true_and]
  omega

/-- Ranges in smaller units. -/
def scale (d : Nat) (rs : List Rng) : List Rng := rs.map (fun r => (r.1 * d, r.2 * d))

theorem rows_scale (d : Nat) (rs : List Rng) : rows (scale d rs) = rows rs * d := by
  induction rs with
  | nil => simp [rows, scale]
  | cons r rs ih =>
    rw [scale, List.map_cons, rows_cons, rows_cons]
    have : rows (rs.map (fun r => (r.1 * d, r.2 * d))) = rows rs * d := ih
    rw [this, Nat.add_mul, Nat.sub_mul]

theorem inB_scale {n d : Nat} (hd : 0 < d) {rs : List Rng} (h : InB n rs) : InB (n * d) (scale d rs) := by
  intro r hr
  obtain ⟨q, hq, e⟩ := List.mem_map.1 hr
  subst e
  have ⟨h1, h2⟩ := h q hq
  exact ⟨Nat.mul_lt_mul_of_pos_right h1 hd, Nat.mul_le_mul_right d h2⟩

theorem wanted_chunk (d n : Nat) (xs : List α) (hx : xs.length = n * d) (rs : List Rng) (h : InB n rs) :
    wanted (chunk d n xs) rs = chunk d (rows rs) (wanted xs (scale d rs)) := by
  induction rs with
  | nil => rfl
  | cons r rs ih =>
    have ⟨h1, h2⟩ := inB_cons h
    have e : scale d (r :: rs) = (r.1 * d, r.2 * d) :: scale d rs := rfl
    rw [wanted_cons, ih h2, rows_cons, e, wanted_cons, chunk_append]
    · congr 1
      exact slice_chunk d n xs r.1 r.2 h1.2
    · rw [length_slice]
      · simp only; rw [Nat.sub_mul]
      · rw [hx]; exact Nat.mul_le_mul_right d h1.2

theorem wanted_map {β : Type} (f : α → β) (xs : List α) (rs : List Rng) : wanted (xs.map f) rs = (wanted xs rs).map f := by
  induction rs with
  | nil => rfl
  | cons r rs ih => rw [wanted_cons, wanted_cons, ih, slice_map, List.map_append]

theorem slice_zipWith {β γ : Type} (f : α → β → γ) (xs : List α) (ys : List β) (r : Rng) :
    slice (List.zipWith f xs ys) r = List.zipWith f (slice xs r) (slice ys r) := by
  simp [slice, List.drop_zipWith, List.take_zipWith]

theorem wanted_zipWith {β γ : Type} (f : α → β → γ) (xs : List α) (ys : List β) (he : xs.length = ys.length)
    (rs : List Rng) (h : InB xs.length rs) :
    wanted (List.zipWith f xs ys) rs = List.zipWith f (wanted xs rs) (wanted ys rs) := by
  induction rs with
  | nil => rfl
  | cons r rs ih =>
    have ⟨h1, h2⟩ := inB_cons h
    rw [wanted_cons, wanted_cons, wanted_cons, ih h2, slice_zipWith, List.zipWith_append]
    rw [length_slice _ _ h1.2, length_slice _ _ (he ▸ h1.2)]

theorem wanted_replicate (n : Nat) (x : α) (rs : List Rng) (h : InB n rs) :
    wanted (List.replicate n x) rs = List.replicate (rows rs) x := by
  induction rs with
  | nil => rfl
  | cons r rs ih =>
    have ⟨h1, h2⟩ := inB_cons h
    rw [wanted_cons, ih h2, rows_cons, ← List.replicate_append_replicate]
    congr 1
    simp only [slice, List.drop_replicate, List.take_replicate]
    congr 1; omega

theorem slice_replicate (n : Nat) (x : α) (a b : Nat) (h : b ≤ n) : slice (List.replicate n x) (a, b) = List.replicate (b - a) x := by
  simp only [slice, List.drop_replicate, List.take_replicate]
  congr 1; omega

theorem wanted_mid (pre xs post : List α) (rs : List Rng) (h : InB xs.length rs) :
    wanted (pre ++ xs ++ post) (rs.map (fun r => (pre.length + r.1, pre.length + r.2))) = wanted xs rs := by
  induction rs with
  | nil => rfl
  | cons r rs ih =>
    have ⟨h1, h2⟩ := inB_cons h
    rw [List.map_cons, wanted_cons, wanted_cons, ih h2, List.append_assoc, slice_append_right _ _ _ (by simp)]
    congr 1
    simp only [Nat.add_sub_cancel_left]
    exact slice_append_left _ _ _ h1.2

/-! ### buffers -/

theorem decodeBuffers_some : ∀ (bs : List (List Nat)) (take : Nat) (d : List Nat),
    decodeBuffers bs 0 take (some d) = d ++ bs.flatten.take take
  | [], take, d => by simp [decodeBuffers]
  | b :: bs, take, d => by
    unfold decodeBuffers
    rw [if_neg (by omega)]
    simp only [Nat.sub_zero, Nat.zero_add]
    rw [decodeBuffers_some bs, List.flatten_cons, List.take_append, List.append_assoc]
    simp only [slice, List.drop_zero, Nat.sub_zero]
    congr 2
    · rw [List.take_eq_take_iff]; omega
    · congr 1; omega

theorem decodeBuffers_none : ∀ (bs : List (List Nat)) (skip take : Nat),
    decodeBuffers bs skip take none = slice bs.flatten (skip, skip + take)
  | [], skip, take => by simp [decodeBuffers, slice]
  | b :: bs, skip, take => by
    unfold decodeBuffers
    by_cases hs : skip > b.length
    · rw [if_pos hs, decodeBuffers_none bs, List.flatten_cons, slice_append_right _ _ _ (by simp only; omega)]
      congr 1
      simp only [Prod.mk.injEq, true_and]; omega
    · rw [if_neg hs, List.flatten_cons, slice_append _ _ _ _ (by omega)]
      simp only
      by_cases ht : take ≤ b.length - skip
      · have e : take - min (b.length - skip) take = 0 := by omega
        rw [e]
        simp only
        rw [slice_zero_len bs.flatten _ _ (by omega), List.append_nil]
        congr 1
        simp only [Prod.mk.injEq, true_and]; omega
      · have e : take - min (b.length - skip) take = (take - (b.length - skip) - 1) + 1 := by omega
        rw [e]
        simp only
        rw [decodeBuffers_some]
        congr 1
        · simp only [slice]; rw [List.take_eq_take_iff, List.length_drop]; omega
        · simp only [slice, List.drop_zero, Nat.sub_zero]
          congr 1; omega

/-! ### bitmaps -/

theorem byteOf_testBit : ∀ (bs : List Bool) (j : Nat), (byteOf bs).testBit j = bs.getD j false
  | [], j => by simp [byteOf]
  | b :: bs, 0 => by
    simp only [byteOf, List.getD_cons_zero, Nat.testBit_zero]
    cases b <;> simp <;> omega
  | b :: bs, j + 1 => by
    have e : (byteOf (b :: bs)) / 2 = byteOf bs := by
      simp only [byteOf]; split <;> omega
    rw [Nat.testBit_succ, e, byteOf_testBit bs j]
    simp

theorem length_packBits (bs : List Bool) : (packBits bs).length = (bs.length + 7) / 8 := by simp [packBits]

theorem bitAt_packBits (bs : List Bool) (i : Nat) (h : i < bs.length) : bitAt (packBits bs) i = bs.getD i false := by
  unfold bitAt packBits
  have hi : i / 8 < (bs.length + 7) / 8 := by omega
  rw [List.getD_eq_getElem?_getD, List.getElem?_map, List.getElem?_range hi]
  simp only [Option.map_some, Option.getD_some]
  rw [byteOf_testBit]
  simp only [slice, List.getD_eq_getElem?_getD]
  rw [List.getElem?_take, if_pos (by omega), List.getElem?_drop]
  congr 2; omega

theorem bitAt_slice (data : List Nat) (a b i : Nat) (h : i / 8 < b - a) : bitAt (slice data (a, b)) i = bitAt data (8 * a + i) := by
  unfold bitAt slice
  simp only [List.getD_eq_getElem?_getD]
  rw [List.getElem?_take, if_pos h, List.getElem?_drop]
  have e1 : (8 * a + i) / 8 = a + i / 8 := by omega
  have e2 : (8 * a + i) % 8 = i % 8 := by omega
  rw [e1, e2]

theorem range_map_getD (bs : List Bool) (a n : Nat) (h : a + n ≤ bs.length) :
    (List.range n).map (fun i => bs.getD (a + i) false) = slice bs (a, a + n) := by
  apply List.ext_getElem
  · simp [slice]; omega
  · intro i h1 h2
    have hi : i < n := by simpa using h1
    simp [slice, List.getElem_take, List.getElem_drop, List.getD_eq_getElem?_getD, List.getElem?_eq_getElem (show a + i < bs.length by omega)]

/-- The bits `skip ..` of a range that was read. -/
theorem bitsOf_range (bs : List Bool) (r : Rng) (h1 : r.1 < r.2) (h2 : r.2 ≤ bs.length) (skip n : Nat) (hn : skip + n ≤ r.2 - r.1) :
    bitsOf (slice (packBits bs) (r.1 / 8, (r.2 + 7) / 8)) (skip + r.1 % 8) n = some (slice bs (r.1 + skip, r.1 + skip + n)) := by
  unfold bitsOf
  rw [length_slice _ _ (by rw [length_packBits]; simp only; omega)]
  rw [if_pos (by simp only; omega), ← range_map_getD bs (r.1 + skip) n (by omega)]
  congr 1
  apply List.map_congr_left
  intro i hi
  have hi : i < n := by simpa using hi
  rw [bitAt_slice _ _ _ _ (by omega)]
  have e : 8 * (r.1 / 8) + (skip + r.1 % 8 + i) = r.1 + skip + i := by omega
  rw [e]
  exact bitAt_packBits bs _ (by omega)

theorem fits_zero (n : Nat) : ∀ (rs : List Rng), Fits rs 0 n
  | [] => trivial
  | r :: rs => by
    unfold Fits
    split
    · simpa using fits_zero n rs
    · exact Or.inl rfl

theorem decodeBitmap_ok (bs : List Bool) : ∀ (rs : List Rng) (skip num : Nat), InB bs.length rs → skip + num ≤ rows rs →
    Fits rs skip num →
    decodeBitmap (rs.map (fun r => (slice (packBits bs) (r.1 / 8, (r.2 + 7) / 8), r.1 % 8, r.2 - r.1))) skip num =
      some (slice (wanted bs rs) (skip, skip + num))
  | [], skip, num, _, hn, _ => by
    have : num = 0 := by simp [rows] at hn; omega
    subst this
    simp [decodeBitmap, slice]
  | r :: rs, skip, num, hr, hn, hf => by
    have ⟨h1, h2⟩ := inB_cons hr
    rw [rows_cons] at hn
    rw [List.map_cons, decodeBitmap, wanted_cons]
    have hl : (slice bs r).length = r.2 - r.1 := length_slice _ _ h1.2
    unfold Fits at hf
    by_cases hs : r.2 - r.1 ≤ skip
    · rw [if_pos hs] at hf ⊢
      rw [decodeBitmap_ok bs rs _ _ h2 (by omega) hf, slice_append_right _ _ _ (by rw [hl]; exact hs), hl]
      congr 3; omega
    · rw [if_neg hs] at hf ⊢
      simp only
      rw [slice_append _ _ _ _ (by omega), hl]
      have key : skip + min num (r.2 - r.1) ≤ r.2 - r.1 := by omega
      rw [bitsOf_range bs r h1.1 h1.2 skip _ key, decodeBitmap_ok bs rs 0 _ h2 (by omega) (fits_zero _ _)]
      simp only [Option.some.injEq]
      congr 1
      · have : slice bs r = slice bs (r.1, r.2) := rfl
        rw [this]
        rcases hf with h0 | h0
        · subst h0
          simp only [slice, List.drop_zero, Nat.sub_zero, Nat.zero_add, Nat.add_zero, Nat.add_sub_cancel_left, List.take_take]
        · rw [slice_slice _ _ _ _ _ h0, Nat.min_eq_left (by omega), Nat.add_assoc]
      · congr 1
        simp only [Prod.mk.injEq, true_and]
        omega

theorem fits_scale {d : Nat} (hd : 0 < d) : ∀ (rs : List Rng) (skip num : Nat), Fits rs skip num →
    Fits (scale d rs) (skip * d) (num * d)
  | [], _, _, _ => trivial
  | r :: rs, skip, num, h => by
    unfold Fits at h
    have e : scale d (r :: rs) = (r.1 * d, r.2 * d) :: scale d rs := rfl
    rw [e]
    unfold Fits
    simp only
    rw [← Nat.sub_mul]
    by_cases hs : r.2 - r.1 ≤ skip
    · rw [if_pos hs] at h
      rw [if_pos (Nat.mul_le_mul_right d hs), ← Nat.sub_mul]
      exact fits_scale hd rs _ _ h
    · rw [if_neg hs] at h
      rw [if_neg (by intro hc; exact hs (Nat.le_of_mul_le_mul_right hc hd))]
      rcases h with h | h
      · left; simp [h]
      · right
        rw [← Nat.add_mul]
        exact Nat.mul_le_mul_right d h

end Verif.Phys
