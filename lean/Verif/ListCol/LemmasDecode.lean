import Verif.ListCol.LemmasEnc
/-! Lemmas about `decode_offsets`. -/
namespace Verif.ListCol

variable {α : Type}

/-- The offsets that are read for a range of a page. -/
def offRange (r : Rng) : Rng := (if r.1 = 0 then 0 else r.1 - 1, r.2)

/-- The request for a range of a page (in rows of the page). -/
def reqOf (A io : Nat) (r : Rng) : Req := ⟨r.2 - r.1, r.1 != 0, A, io⟩

/-- The items of a range. -/
def itemRange (lv : LV) (io : Nat) (r : Rng) : List Rng :=
  if total (lv.take r.1) < total (lv.take r.2) then [(total (lv.take r.1) + io, total (lv.take r.2) + io)] else []

theorem piece_extra (A : Nat) (lv : LV) (r : Rng) (h0 : r.1 ≠ 0) (h1 : r.1 < r.2) (h2 : r.2 ≤ lv.length)
    (hA : total lv < A) :
    ∃ o, slice (ends A 0 lv) (offRange r) = o :: ends A (total (lv.take r.1)) (slice lv r) ∧
      o % A = total (lv.take r.1) := by
  unfold offRange
  rw [if_neg h0, slice_ends _ _ _ _ _ (by omega)]
  have e : slice lv (r.1 - 1, r.2) = slice lv (r.1 - 1, r.1) ++ slice lv r := slice_split lv _ _ _ (by omega) (by omega)
  have hl : (slice lv (r.1 - 1, r.1)).length = 1 := by rw [length_slice _ _ (by simp only; omega)]; simp only; omega
  obtain ⟨x, hx⟩ := List.length_eq_one_iff.1 hl
  have ht := total_take_slice lv (r.1 - 1) r.1 (by omega)
  rw [hx, total_cons, total_nil] at ht
  rw [e, hx]
  refine ⟨total (lv.take r.1) + (if x.2 then 0 else A), ?_, ?_⟩
  · simp only [List.singleton_append, ends]
    rw [show 0 + total (lv.take (r.1 - 1)) + x.1 = total (lv.take r.1) by omega]
  · have := total_take_le lv r.1
    split
    · rw [Nat.add_zero, Nat.mod_eq_of_lt (by omega)]
    · rw [Nat.add_mod_right, Nat.mod_eq_of_lt (by omega)]

theorem getD_append_right' (xs ys : List Nat) (i d : Nat) : (xs ++ ys).getD (xs.length + i) d = ys.getD i d := by
  simp [List.getD, List.getElem?_append_right]

theorem getD_append_left' (xs ys : List Nat) (i d : Nat) (h : i < xs.length) : (xs ++ ys).getD i d = xs.getD i d := by
  simp [List.getD, List.getElem?_append_left h]

/-- Requests with an extra offset. -/
theorem loop_extra (A io : Nat) (lv : LV) (hA : total lv < A) : ∀ (R : List Rng) (pre : List Nat) (last : Nat),
    Ordered lv.length R → (∀ r ∈ R, r.1 ≠ 0) →
    decodeLoop (pre ++ R.flatMap (fun r => slice (ends A 0 lv) (offRange r))) A last pre.length (R.map (reqOf A io)) =
      some (R.flatMap (itemRange lv io), sums last (R.flatMap (slice lv)), (R.flatMap (slice lv)).map Prod.snd) := by
  intro R
  induction R with
  | nil => intro pre last _ _; simp [decodeLoop, sums]
  | cons r rs ih =>
    intro pre last ho hz
    obtain ⟨h1, h2, h3, h4⟩ := ho
    have h0 : r.1 ≠ 0 := hz r List.mem_cons_self
    obtain ⟨o, he, hm⟩ := piece_extra A lv r h0 h1 h2 hA
    have hne : (r.1 != 0) = true := by simpa using h0
    have hslen : (slice lv r).length = r.2 - r.1 := length_slice lv r h2
    have htot : total (lv.take r.1) + total (slice lv r) = total (lv.take r.2) := total_take_slice lv r.1 r.2 (by omega)
    have hlt : total (lv.take r.1) + total (slice lv r) < A := by have := total_take_le lv r.2; omega
    have hplen : (slice (ends A 0 lv) (offRange r)).length = r.2 - r.1 + 1 := by
      rw [he, List.length_cons, length_ends, hslen]
    have ihr := ih (pre ++ slice (ends A 0 lv) (offRange r)) (last + total (slice lv r)) h4
      (fun r' h => hz r' (List.mem_cons_of_mem _ h))
    rw [List.length_append, hplen, List.append_assoc] at ihr
    rw [List.flatMap_cons, List.map_cons]
    unfold decodeLoop
    simp only [reqOf, hne, if_true]
    rw [if_neg (by simp only [List.length_append, hplen]; omega)]
    have g0 : (pre ++ (slice (ends A 0 lv) (offRange r) ++ rs.flatMap (fun r => slice (ends A 0 lv) (offRange r)))).getD
        pre.length 0 % A = total (lv.take r.1) := by
      have := getD_append_right' pre (slice (ends A 0 lv) (offRange r) ++ rs.flatMap (fun r => slice (ends A 0 lv) (offRange r))) 0 0
      rw [Nat.add_zero] at this
      rw [this, he]
      simpa using hm
    have g1 : (pre ++ (slice (ends A 0 lv) (offRange r) ++ rs.flatMap (fun r => slice (ends A 0 lv) (offRange r)))).getD
        (pre.length + (r.2 - r.1 + 1) - 1) 0 % A = total (lv.take r.2) := by
      rw [show pre.length + (r.2 - r.1 + 1) - 1 = pre.length + (r.2 - r.1) by omega, getD_append_right',
        getD_append_left' _ _ _ _ (by rw [hplen]; omega), he, ← hslen, last_ends A _ _ _ hm hlt, htot]
    have g2 : slice (pre ++ (slice (ends A 0 lv) (offRange r) ++ rs.flatMap (fun r => slice (ends A 0 lv) (offRange r))))
        (pre.length, pre.length + (r.2 - r.1 + 1)) = o :: ends A (total (lv.take r.1)) (slice lv r) := by
      rw [slice_append_right _ _ _ (Nat.le_refl _)]
      simp only [Nat.sub_self, Nat.add_sub_cancel_left]
      rw [slice_append_left _ _ _ (by rw [hplen]; exact Nat.le_refl _), ← hplen, slice_all, he]
    have g3 : slice (pre ++ (slice (ends A 0 lv) (offRange r) ++ rs.flatMap (fun r => slice (ends A 0 lv) (offRange r))))
        (pre.length + 1, pre.length + 1 + (r.2 - r.1)) = ends A (total (lv.take r.1)) (slice lv r) := by
      rw [slice_append_right _ _ _ (by simp only; omega)]
      simp only [show pre.length + 1 - pre.length = 1 by omega,
        show pre.length + 1 + (r.2 - r.1) - pre.length = 1 + (r.2 - r.1) by omega]
      rw [slice_append_left _ _ _ (by rw [hplen]; simp only; omega), he]
      unfold slice
      simp only [List.drop_succ_cons, List.drop_zero, Nat.add_sub_cancel_left]
      apply List.take_of_length_le
      rw [length_ends]; exact Nat.le_of_eq hslen
    rw [g0, g1, g2, g3, shift_ends A _ _ _ _ hm hlt, flags_ends A _ _ hlt]
    simp only
    rw [ihr]
    simp only [Option.map_some, List.nil_append, List.flatMap_cons, itemRange, sums_append, List.map_append]

/-- All requests of a page. -/
theorem loop_page (A io : Nat) (lv : LV) (hA : total lv < A) (R : List Rng) (ho : Ordered lv.length R) :
    decodeOffsets (R.flatMap (fun r => slice (ends A 0 lv) (offRange r))) (R.map (reqOf A io)) A =
      some (R.flatMap (itemRange lv io), 0 :: sums 0 (R.flatMap (slice lv)), (R.flatMap (slice lv)).map Prod.snd) := by
  unfold decodeOffsets
  have key : decodeLoop (R.flatMap (fun r => slice (ends A 0 lv) (offRange r))) A 0 0 (R.map (reqOf A io)) =
      some (R.flatMap (itemRange lv io), sums 0 (R.flatMap (slice lv)), (R.flatMap (slice lv)).map Prod.snd) := by
    cases R with
    | nil => simp [decodeLoop, sums]
    | cons r rs =>
      by_cases h0 : r.1 = 0
      · obtain ⟨h1, h2, h3, h4⟩ := ho
        have hz : ∀ r' ∈ rs, r'.1 ≠ 0 := fun r' h => by have := h3 r' h; omega
        have hoff : offRange r = (0, r.2) := by unfold offRange; rw [if_pos h0]
        have hr : r = (0, r.2) := by rw [← h0]
        have hslen : (slice lv r).length = r.2 := by rw [length_slice lv r h2]; omega
        have he : slice (ends A 0 lv) (offRange r) = ends A 0 (slice lv r) := by
          rw [hoff, slice_ends _ _ _ _ _ (by omega), List.take_zero, total_nil, ← hr]
        have htot : total (slice lv r) = total (lv.take r.2) := by
          have := total_take_slice lv 0 r.2 (by omega)
          rw [List.take_zero, total_nil, ← hr] at this; omega
        have hlt : 0 + total (slice lv r) < A := by have := total_take_le lv r.2; omega
        have hplen : (slice (ends A 0 lv) (offRange r)).length = r.2 := by rw [he, length_ends, hslen]
        have hcons : ∃ x l, slice lv r = x :: l := by
          cases hs : slice lv r with
          | nil => rw [hs] at hslen; simp at hslen; omega
          | cons x l => exact ⟨x, l, rfl⟩
        obtain ⟨x, l, hxl⟩ := hcons
        have hend : ends A 0 (slice lv r) = (x.1 + if x.2 then 0 else A) :: ends A x.1 l := by
          rw [hxl]; simp [ends]
        have hx : x.1 + total l < A := by rw [hxl, total_cons] at hlt; omega
        have hmod : (x.1 + if x.2 then 0 else A) % A = x.1 := by
          split
          · rw [Nat.add_zero, Nat.mod_eq_of_lt (by omega)]
          · rw [Nat.add_mod_right, Nat.mod_eq_of_lt (by omega)]
        have hllen : l.length + 1 = r.2 := by rw [hxl] at hslen; simpa using hslen
        have ihr := loop_extra A io lv hA rs (slice (ends A 0 lv) (offRange r)) (0 + total (slice lv r)) h4 hz
        rw [hplen] at ihr
        rw [List.flatMap_cons, List.map_cons]
        unfold decodeLoop
        have hne : (r.1 != 0) = false := by simp [h0]
        simp only [reqOf, hne, Bool.false_eq_true, if_false, h0, bne_self_eq_false, Nat.sub_zero, Nat.zero_add]
        rw [if_neg (by simp only [List.length_append, hplen]; omega)]
        have g1 : (slice (ends A 0 lv) (offRange r) ++ rs.flatMap (fun r => slice (ends A 0 lv) (offRange r))).getD
            (r.2 - 1) 0 % A = total (lv.take r.2) := by
          rw [getD_append_left' _ _ _ _ (by rw [hplen]; omega), he, hend, show r.2 - 1 = l.length by omega,
            last_ends A _ _ _ hmod hx, ← htot, hxl, total_cons]
        have g0 : (slice (ends A 0 lv) (offRange r) ++ rs.flatMap (fun r => slice (ends A 0 lv) (offRange r))).getD
            0 0 % A = x.1 := by
          rw [getD_append_left' _ _ _ _ (by rw [hplen]; omega), he, hend]
          simpa using hmod
        have g2 : slice (slice (ends A 0 lv) (offRange r) ++ rs.flatMap (fun r => slice (ends A 0 lv) (offRange r)))
            (0, r.2) = ends A 0 (slice lv r) := by
          rw [slice_append_left _ _ _ (by rw [hplen]; exact Nat.le_refl _)]
          conv => lhs; rw [← hplen]
          rw [slice_all, he]
        rw [g0, g1, g2, flags_ends A _ _ hlt]
        conv in shiftOffsets _ _ _ => rw [hend, shift_ends A _ _ _ _ hmod hx]
        simp only
        rw [show x.1 + total l = 0 + total (slice lv r) by rw [hxl, total_cons]; omega, ihr]
        simp only [Option.map_some, List.flatMap_cons, itemRange, sums_append, List.map_append, h0, List.take_zero,
          total_nil, Nat.zero_add]
        congr 3
        rw [hxl]; simp [sums]
      · have hz : ∀ r' ∈ r :: rs, r'.1 ≠ 0 := by
          intro r' h
          rcases List.mem_cons.1 h with h | h
          · subst h; exact h0
          · have := ho.2.2.1 r' h; have := ho.1; omega
        have := loop_extra A io lv hA (r :: rs) [] 0 ho hz
        simpa using this
  rw [key]; rfl

/-! ### The items -/

theorem items_cells (items : List α) (io : Nat) (lv : LV) (hl : io + total lv ≤ items.length) : ∀ (R : List Rng),
    Ordered lv.length R →
    cells (wanted items (R.flatMap (itemRange lv io))) 0 (R.flatMap (slice lv)) = wanted (cells items io lv) R ∧
      total (R.flatMap (slice lv)) = (wanted items (R.flatMap (itemRange lv io))).length := by
  intro R
  induction R with
  | nil => intro _; exact ⟨rfl, rfl⟩
  | cons r rs ih =>
    intro ho
    obtain ⟨h1, h2, h3, h4⟩ := ho
    obtain ⟨i1, i2⟩ := ih h4
    have htot : total (lv.take r.1) + total (slice lv r) = total (lv.take r.2) := total_take_slice lv r.1 r.2 (by omega)
    have hle := total_take_le lv r.2
    have hw : wanted items (itemRange lv io r) = slice items (io + total (lv.take r.1), io + total (lv.take r.2)) := by
      unfold itemRange
      split
      · simp [wanted, Nat.add_comm]
      · rw [show io + total (lv.take r.2) = io + total (lv.take r.1) by omega, slice_empty]; rfl
    have hwl : (wanted items (itemRange lv io r)).length = total (slice lv r) := by
      rw [hw, length_slice _ _ (by simp only; omega)]; simp only; omega
    have hsplit : wanted items ((r :: rs).flatMap (itemRange lv io)) =
        wanted items (itemRange lv io r) ++ wanted items (rs.flatMap (itemRange lv io)) := by
      simp [wanted, List.flatMap_append]
    rw [hsplit, List.flatMap_cons]
    refine ⟨?_, ?_⟩
    · rw [cells_append, cells_left _ _ _ _ (by rw [hwl]; omega), Nat.zero_add]
      have := cells_right (wanted items (itemRange lv io r)) (wanted items (rs.flatMap (itemRange lv io)))
        (rs.flatMap (slice lv)) 0
      rw [hwl, Nat.add_zero] at this
      rw [this, i1, hw, cells_slice _ _ _ _ _ (by omega)]
      simp only [wanted, List.flatMap_cons]
      rw [show slice (cells items io lv) r = slice (cells items io lv) (r.1, r.2) from rfl,
        slice_cells _ _ _ _ _ (by omega), Nat.add_zero]
    · rw [total_append, List.length_append, hwl, i2]

theorem itemRange_ordered (lv : LV) (io n : Nat) (hl : io + total lv ≤ n) : ∀ (R : List Rng), Ordered lv.length R →
    Ordered n (R.flatMap (itemRange lv io)) ∧
      ∀ x, (∀ r ∈ R, x ≤ r.1) → ∀ r ∈ R.flatMap (itemRange lv io), io + total (lv.take x) ≤ r.1 := by
  intro R
  induction R with
  | nil => intro _; exact ⟨trivial, fun _ _ _ h => (nomatch h)⟩
  | cons r rs ih =>
    intro ho
    obtain ⟨h1, h2, h3, h4⟩ := ho
    obtain ⟨i1, i2⟩ := ih h4
    have hmono : ∀ a b, a ≤ b → total (lv.take a) ≤ total (lv.take b) := by
      intro a b hab
      have := total_take_slice lv a b hab; omega
    have hle := total_take_le lv r.2
    rw [List.flatMap_cons]
    unfold itemRange
    split
    · refine ⟨⟨?_, ?_, ?_, i1⟩, ?_⟩
      · simp only; omega
      · simp only; omega
      · intro r' h
        have := i2 r.2 h3 r' h
        simp only; omega
      · intro x hx r' h
        rcases List.mem_cons.1 h with h | h
        · subst h
          have := hmono x r.1 (hx r List.mem_cons_self)
          simp only; omega
        · exact i2 x (fun y hy => hx y (List.mem_cons_of_mem _ hy)) r' h
    · refine ⟨i1, ?_⟩
      intro x hx r' h
      exact i2 x (fun y hy => hx y (List.mem_cons_of_mem _ hy)) r' h

/-- What is loaded for a page. -/
theorem loadPage_rows (items : List α) (readItems : List Rng → Option (List α)) (hr : Reads readItems items)
    (A io : Nat) (lv : LV) (hA : total lv < A) (hl : io + total lv ≤ items.length) (R : List Rng)
    (ho : Ordered lv.length R) :
    ∃ l, loadPage readItems (R.flatMap (fun r => slice (ends A 0 lv) (offRange r))) (R.map (reqOf A io)) A = some l ∧
      l.rows = wanted (cells items io lv) R ∧
      l.offsets = 0 :: sums 0 (R.flatMap (slice lv)) ∧ l.validity = (R.flatMap (slice lv)).map Prod.snd ∧
      l.items.length = total (R.flatMap (slice lv)) := by
  unfold loadPage
  rw [loop_page A io lv hA R ho]
  obtain ⟨c1, c2⟩ := items_cells items io lv hl R ho
  obtain ⟨o1, -⟩ := itemRange_ordered lv io items.length hl R ho
  simp only
  by_cases he : (R.flatMap (itemRange lv io)).isEmpty
  · rw [if_pos he]
    rw [List.isEmpty_iff] at he
    rw [he] at c1 c2
    refine ⟨_, rfl, ?_, rfl, rfl, ?_⟩
    · unfold Loaded.rows
      simp only
      rw [lists_sums]; exact c1
    · rw [c2]; rfl
  · rw [if_neg he, hr _ o1]
    refine ⟨_, rfl, ?_, rfl, rfl, ?_⟩
    · unfold Loaded.rows
      simp only
      rw [lists_sums]; exact c1
    · exact c2.symm

end Verif.ListCol
