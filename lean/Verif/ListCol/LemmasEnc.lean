import Verif.ListCol.LemmasPages
/-! Lemmas about the offsets that are stored. -/
namespace Verif.ListCol

variable {α : Type}

/-- Lengths (of null lists too) and flags of lists. -/
abbrev LV := List (Nat × Bool)

/-- The number of items. -/
def total (lv : LV) : Nat := (lv.map Prod.fst).sum

theorem total_nil : total [] = 0 := rfl
theorem total_cons (x : Nat × Bool) (lv : LV) : total (x :: lv) = x.1 + total lv := by simp [total]
theorem total_append (a b : LV) : total (a ++ b) = total a + total b := by simp [total]

/-- The stored offsets: ends of the lists, plus `A` for null. -/
def ends (A : Nat) : Nat → LV → List Nat
  | _, [] => []
  | c, x :: lv => (c + x.1 + if x.2 then 0 else A) :: ends A (c + x.1) lv

/-- Running sums. -/
def sums : Nat → LV → List Nat
  | _, [] => []
  | c, x :: lv => (c + x.1) :: sums (c + x.1) lv

/-- The lists with items from position `c`. -/
def cells (items : List α) : Nat → LV → List (Option (List α))
  | _, [] => []
  | c, x :: lv => (if x.2 then some (slice items (c, c + x.1)) else none) :: cells items (c + x.1) lv

theorem length_ends (A : Nat) : ∀ (c : Nat) (lv : LV), (ends A c lv).length = lv.length
  | _, [] => rfl
  | c, x :: lv => by simp [ends, length_ends A (c + x.1) lv]

theorem length_cells (items : List α) : ∀ (c : Nat) (lv : LV), (cells items c lv).length = lv.length
  | _, [] => rfl
  | c, x :: lv => by simp [cells, length_cells items (c + x.1) lv]

theorem length_sums : ∀ (c : Nat) (lv : LV), (sums c lv).length = lv.length
  | _, [] => rfl
  | c, x :: lv => by simp [sums, length_sums (c + x.1) lv]

theorem ends_append (A : Nat) : ∀ (c : Nat) (a b : LV), ends A c (a ++ b) = ends A c a ++ ends A (c + total a) b
  | c, [], b => by simp [ends, total]
  | c, x :: a, b => by simp [ends, ends_append A (c + x.1) a b, total_cons, Nat.add_assoc]

theorem sums_append : ∀ (c : Nat) (a b : LV), sums c (a ++ b) = sums c a ++ sums (c + total a) b
  | c, [], b => by simp [sums, total]
  | c, x :: a, b => by simp [sums, sums_append (c + x.1) a b, total_cons, Nat.add_assoc]

theorem cells_append (items : List α) : ∀ (c : Nat) (a b : LV),
    cells items c (a ++ b) = cells items c a ++ cells items (c + total a) b
  | c, [], b => by simp [cells, total]
  | c, x :: a, b => by simp [cells, cells_append items (c + x.1) a b, total_cons, Nat.add_assoc]

theorem take_split (lv : LV) (a : Nat) : ∀ {f : Nat → LV → List β}, (∀ c a b, f c (a ++ b) = f c a ++ f (c + total a) b) →
    (∀ c lv, (f c lv).length = lv.length) → ∀ (c b : Nat), a ≤ b →
    slice (f c lv) (a, b) = f (c + total (lv.take a)) (slice lv (a, b)) := by
  intro f happ hlen c b hab
  have e : lv = lv.take a ++ (slice lv (a, b) ++ (lv.drop a).drop (b - a)) := by
    unfold slice
    rw [List.take_append_drop, List.take_append_drop]
  by_cases ha : a ≤ lv.length
  · conv => lhs; rw [e]
    rw [happ, happ, slice_append_right _ _ _ (by rw [hlen]; simp; omega), hlen]
    have hl : (lv.take a).length = a := by simp; omega
    simp only [hl, Nat.sub_self]
    by_cases hb : b ≤ lv.length
    · have hs : (slice lv (a, b)).length = b - a := length_slice lv (a, b) hb
      rw [slice_append_left _ _ _ (by rw [hlen, hs]; exact Nat.le_refl _)]
      have : b - a = (f (c + total (lv.take a)) (slice lv (a, b))).length := by rw [hlen, hs]
      rw [this, slice_all]
    · have hd : (lv.drop a).drop (b - a) = [] := by
        apply List.drop_eq_nil_of_le; simp; omega
      have hnil : ∀ c, f c [] = [] := fun c => List.length_eq_zero_iff.1 (hlen c [])
      rw [hd, hnil, List.append_nil]
      unfold slice
      simp only [List.drop_zero, Nat.sub_zero]
      apply List.take_of_length_le
      rw [hlen]; simp; omega
  · have h1 : slice lv (a, b) = [] := by
      unfold slice; rw [List.drop_eq_nil_of_le (by omega)]; simp
    have hnil : ∀ c, f c [] = [] := fun c => List.length_eq_zero_iff.1 (hlen c [])
    rw [h1, hnil]
    unfold slice
    rw [List.drop_eq_nil_of_le (by rw [hlen]; simp only; omega)]; simp

theorem slice_ends (A c : Nat) (lv : LV) (a b : Nat) (h : a ≤ b) :
    slice (ends A c lv) (a, b) = ends A (c + total (lv.take a)) (slice lv (a, b)) :=
  take_split lv a (ends_append A) (length_ends A) c b h

theorem slice_cells (items : List α) (c : Nat) (lv : LV) (a b : Nat) (h : a ≤ b) :
    slice (cells items c lv) (a, b) = cells items (c + total (lv.take a)) (slice lv (a, b)) :=
  take_split lv a (cells_append items) (length_cells items) c b h

theorem total_take_le (lv : LV) (a : Nat) : total (lv.take a) ≤ total lv := by
  conv => rhs; rw [← List.take_append_drop a lv, total_append]
  omega

theorem total_take_slice (lv : LV) (a b : Nat) (h : a ≤ b) :
    total (lv.take a) + total (slice lv (a, b)) = total (lv.take b) := by
  rw [← total_append]
  congr 1
  unfold slice
  have : b = a + (b - a) := by omega
  conv => rhs; rw [this, List.take_add]

theorem total_slice_le (lv : LV) (r : Rng) : total (slice lv r) ≤ total lv := by
  unfold slice
  refine Nat.le_trans (total_take_le _ _) ?_
  conv => rhs; rw [← List.take_append_drop r.1 lv, total_append]
  omega

/-! ### Decoding what was stored -/

theorem shift_ends (A : Nat) : ∀ (lv : LV) (c o last : Nat), o % A = c → c + total lv < A →
    shiftOffsets A last (o :: ends A c lv) = some (sums last lv, last + total lv)
  | [], c, o, last, _, _ => by simp [ends, shiftOffsets, sums, total]
  | x :: lv, c, o, last, ho, hA => by
    rw [total_cons] at hA
    have hb : (c + x.1 + if x.2 then 0 else A) % A = c + x.1 := by
      split
      · rw [Nat.add_zero, Nat.mod_eq_of_lt (by omega)]
      · rw [Nat.add_mod_right, Nat.mod_eq_of_lt (by omega)]
    have ih := shift_ends A lv (c + x.1) (c + x.1 + if x.2 then 0 else A) (last + x.1) hb (by omega)
    unfold ends shiftOffsets
    rw [hb, ho, if_neg (by omega), show last + (c + x.1 - c) = last + x.1 by omega, ih]
    simp [sums, total_cons, Nat.add_assoc]

theorem flags_ends (A : Nat) : ∀ (lv : LV) (c : Nat), c + total lv < A →
    (ends A c lv).map (fun o => decide (o < A)) = lv.map Prod.snd
  | [], _, _ => rfl
  | x :: lv, c, hA => by
    rw [total_cons] at hA
    simp only [ends, List.map_cons]
    rw [flags_ends A lv (c + x.1) (by omega)]
    congr 1
    cases x.2 <;> simp <;> omega

theorem last_ends (A : Nat) : ∀ (lv : LV) (c o : Nat), o % A = c → c + total lv < A →
    (o :: ends A c lv).getD lv.length 0 % A = c + total lv
  | [], c, o, ho, _ => by simp [ends, ho, total]
  | x :: lv, c, o, ho, hA => by
    rw [total_cons] at hA
    have hb : (c + x.1 + if x.2 then 0 else A) % A = c + x.1 := by
      split
      · rw [Nat.add_zero, Nat.mod_eq_of_lt (by omega)]
      · rw [Nat.add_mod_right, Nat.mod_eq_of_lt (by omega)]
    have := last_ends A lv (c + x.1) _ hb (by omega)
    simp only [ends, List.length_cons, List.getD_cons_succ]
    rw [this, total_cons]; omega

theorem lists_sums (items : List α) : ∀ (lv : LV) (c : Nat),
    lists (c :: sums c lv) (lv.map Prod.snd) items = cells items c lv
  | [], c => by simp [sums, lists, cells]
  | x :: lv, c => by
    simp only [sums, List.map_cons, lists, cells]
    rw [lists_sums items lv (c + x.1)]

/-- Items that are not used do not matter. -/
theorem cells_left (items more : List α) : ∀ (lv : LV) (c : Nat), c + total lv ≤ items.length →
    cells (items ++ more) c lv = cells items c lv
  | [], _, _ => rfl
  | x :: lv, c, h => by
    rw [total_cons] at h
    simp only [cells]
    rw [cells_left items more lv (c + x.1) (by omega), slice_append_left _ _ _ (by simp only; omega)]

theorem cells_right (before items : List α) : ∀ (lv : LV) (c : Nat),
    cells (before ++ items) (before.length + c) lv = cells items c lv
  | [], _ => rfl
  | x :: lv, c => by
    simp only [cells]
    rw [Nat.add_assoc, cells_right before items lv (c + x.1), slice_append_right _ _ _ (by simp only; omega)]
    have e1 : before.length + c - before.length = c := by omega
    have e2 : before.length + (c + x.1) - before.length = c + x.1 := by omega
    simp only [e1, e2]

theorem slice_slice (xs : List α) (a b c d : Nat) (h2 : a + d ≤ b) :
    slice (slice xs (a, b)) (c, d) = slice xs (a + c, a + d) := by
  unfold slice
  simp only
  rw [List.drop_take, List.drop_drop, List.take_take]
  congr 1; omega

theorem cells_slice (items : List α) (a b : Nat) : ∀ (lv : LV) (c : Nat), a + c + total lv ≤ b →
    cells (slice items (a, b)) c lv = cells items (a + c) lv
  | [], _, _ => rfl
  | x :: lv, c, h => by
    rw [total_cons] at h
    simp only [cells]
    rw [cells_slice items a b lv (c + x.1) (by omega), slice_slice _ _ _ _ _ (by omega), Nat.add_assoc]

end Verif.ListCol
