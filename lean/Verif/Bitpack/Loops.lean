import Verif.Bitpack.Numbers

/-! # Batches of bitpacked pages -/

namespace Verif.Bitpack

/-- The number of rows of some ranges. -/
def count (ranges : List (Nat × Nat)) : Nat := (ranges.map (fun r => r.2 - r.1)).sum

/-- A batch of `n` rows after `skip` rows starts at the start of a range, or lies in one range. -/
def Clean (ranges : List (Nat × Nat)) (skip n : Nat) : Prop :=
  ∃ pre r post k, ranges = pre ++ r :: post ∧ skip = count pre + k ∧ (k = 0 ∨ n ≤ r.2 - r.1 - k)

section
variable (b u : Nat) (hb : 0 < b) (hbu : b ≤ u) (hu : u % 8 = 0) (signed : Bool) (vals : List (List Bool)) (pad : List Bool) (hv : ∀ v ∈ vals, v.length = b)
  (h8 : (vals.flatten ++ pad).length % 8 = 0)
include hb hv h8

theorem rowsOf_length {α : Type} (xs : List α) (ranges : List (Nat × Nat)) (hr : ∀ r ∈ ranges, r.1 ≤ r.2 ∧ r.2 ≤ xs.length) :
    (rowsOf xs ranges).length = count ranges := by
  clear hb hv h8
  induction ranges with
  | nil => rfl
  | cons r ranges ih =>
    have h1 := hr r List.mem_cons_self
    have := ih (fun r hr' => hr r (List.mem_cons_of_mem _ hr'))
    unfold rowsOf count at *
    rw [List.flatMap_cons, List.length_append, this, List.map_cons, List.sum_cons, List.length_take, List.length_drop]
    omega

theorem start_scheduleRange (r : Nat × Nat) (hr : r.1 ≤ r.2 ∧ r.2 ≤ vals.length) (skip : Nat) :
    computeStartOffset skip b (scheduleRange b (vals.flatten ++ pad) r) =
      if skip ≥ r.2 - r.1 then .skipFull (r.2 - r.1) else .skipSome ((scheduleRange b (vals.flatten ++ pad) r).start + skip * b) := by
  have hlen : r.2 * b ≤ (vals.flatten ++ pad).length := by
    rw [List.length_append, flatten_length b vals hv]
    exact Nat.le_trans (Nat.mul_le_mul_right b hr.2) (Nat.le_add_right _ _)
  obtain ⟨s, e⟩ := r
  unfold computeStartOffset
  simp only
  rw [rowsInBuffer_scheduleRange b hb _ s e hr.1 hlen h8, Nat.add_comm]

theorem loop_none : ∀ (bufs : List Buf) (skip : Nat), decodeLoop b u signed bufs skip 0 = some [] := by
  intro bufs
  induction bufs with
  | nil => intro _; rfl
  | cons buf bufs ih =>
    intro skip
    unfold decodeLoop
    split
    · exact ih _
    · simp only [readRows, List.length_nil, Nat.sub_zero, ih]
      rfl

include hbu hu in
/-- One range, when fewer rows are skipped than it has. -/
theorem loop_some (r : Nat × Nat) (hr : r.1 ≤ r.2 ∧ r.2 ≤ vals.length) (post : List Buf) (k n : Nat) (hk : k < r.2 - r.1) :
    decodeLoop b u signed (scheduleRange b (vals.flatten ++ pad) r :: post) k n =
      (decodeLoop b u signed post k (n - (r.2 - r.1 - k))).map ((((rowsOf vals [r]).drop k).take n).map (widen u signed) ++ ·) := by
  have h := readRows_scheduleRange b u hb hbu hu signed vals pad hv h8 r.1 r.2 hr.2 n (r.1 + k) (by omega) (by omega)
  rw [Nat.add_sub_cancel_left] at h
  have hd : (vals.drop (r.1 + k)).take (r.2 - (r.1 + k)) = (rowsOf vals [r]).drop k := by
    simp only [rowsOf, List.flatMap_cons, List.flatMap_nil, List.append_nil]
    rw [List.drop_take, List.drop_drop, Nat.sub_sub]
  rw [hd] at h
  have hl : (((rowsOf vals [r]).drop k).take n).length = min n (r.2 - r.1 - k) := by
    rw [List.length_take, List.length_drop, rowsOf_length b hb vals pad hv h8 vals [r] (by simpa using hr)]
    simp [count]
  conv => lhs; unfold decodeLoop
  rw [start_scheduleRange b hb vals pad hv h8 r hr, if_neg (by omega)]
  simp only
  rw [h]
  simp only [List.length_map, hl]
  rw [show n - min n (r.2 - r.1 - k) = n - (r.2 - r.1 - k) by omega]

theorem loop_full (r : Nat × Nat) (hr : r.1 ≤ r.2 ∧ r.2 ≤ vals.length) (post : List Buf) (k n : Nat) (hk : r.2 - r.1 ≤ k) :
    decodeLoop b u signed (scheduleRange b (vals.flatten ++ pad) r :: post) k n = decodeLoop b u signed post (k - (r.2 - r.1)) n := by
  conv => lhs; unfold decodeLoop
  rw [start_scheduleRange b hb vals pad hv h8 r hr, if_pos hk]

include hbu hu in
theorem loop_zero : ∀ (ranges : List (Nat × Nat)), (∀ r ∈ ranges, r.1 ≤ r.2 ∧ r.2 ≤ vals.length) → ∀ n,
    decodeLoop b u signed (ranges.map (scheduleRange b (vals.flatten ++ pad))) 0 n = some (((rowsOf vals ranges).take n).map (widen u signed)) := by
  intro ranges
  induction ranges with
  | nil => intro _ n; simp [decodeLoop, rowsOf]
  | cons r ranges ih =>
    intro hr n
    have h1 := hr r List.mem_cons_self
    have h2 := ih (fun r hr' => hr r (List.mem_cons_of_mem _ hr'))
    have hl := rowsOf_length b hb vals pad hv h8 vals [r] (by simpa using h1)
    have hc : rowsOf vals (r :: ranges) = rowsOf vals [r] ++ rowsOf vals ranges := by simp [rowsOf]
    rw [List.map_cons, hc]
    by_cases h0 : r.2 - r.1 = 0
    · rw [loop_full b u hb signed vals pad hv h8 r h1 _ 0 n (by omega), h0, Nat.sub_zero, h2]
      have : rowsOf vals [r] = [] := by
        apply List.eq_nil_of_length_eq_zero
        rw [hl]
        simp [count, h0]
      rw [this, List.nil_append]
    · rw [loop_some b u hb hbu hu signed vals pad hv h8 r h1 _ 0 n (by omega), h2, List.take_append, hl]
      simp [count]

theorem loop_pre : ∀ (pre : List (Nat × Nat)), (∀ r ∈ pre, r.1 ≤ r.2 ∧ r.2 ≤ vals.length) → ∀ (post : List Buf) (k n : Nat),
    decodeLoop b u signed (pre.map (scheduleRange b (vals.flatten ++ pad)) ++ post) (count pre + k) n = decodeLoop b u signed post k n := by
  intro pre
  induction pre with
  | nil => intro _ post k n; simp [count]
  | cons r pre ih =>
    intro hr post k n
    have hc : count (r :: pre) = (r.2 - r.1) + count pre := by simp [count]
    rw [List.map_cons, List.cons_append, loop_full b u hb signed vals pad hv h8 r (hr r List.mem_cons_self) _ _ n (by omega), hc,
      show r.2 - r.1 + count pre + k - (r.2 - r.1) = count pre + k by omega, ih (fun r hr' => hr r (List.mem_cons_of_mem _ hr'))]

include hbu hu in
/-- A batch that starts at the start of a range or lies in one range. -/
theorem decode_clean (ranges : List (Nat × Nat)) (hr : ∀ r ∈ ranges, r.1 ≤ r.2 ∧ r.2 ≤ vals.length) (skip n : Nat) (hc : Clean ranges skip n)
    (hn : skip + n ≤ count ranges) :
    decode b u signed (ranges.map (scheduleRange b (vals.flatten ++ pad))) skip n = some ((((rowsOf vals ranges).drop skip).take n).map (widen u signed)) := by
  obtain ⟨pre, r, post, k, rfl, rfl, hk⟩ := hc
  have hpre : ∀ r ∈ pre, r.1 ≤ r.2 ∧ r.2 ≤ vals.length := fun r h => hr r (List.mem_append_left _ h)
  have hrest : ∀ r' ∈ r :: post, r'.1 ≤ r'.2 ∧ r'.2 ≤ vals.length := fun r h => hr r (List.mem_append_right _ h)
  have hlen := rowsOf_length b hb vals pad hv h8 vals (pre ++ r :: post) hr
  have hlpre := rowsOf_length b hb vals pad hv h8 vals pre hpre
  have happ : rowsOf vals (pre ++ r :: post) = rowsOf vals pre ++ rowsOf vals (r :: post) := by simp [rowsOf]
  have hloop : decodeLoop b u signed ((pre ++ r :: post).map (scheduleRange b (vals.flatten ++ pad))) (count pre + k) n =
      some ((((rowsOf vals (pre ++ r :: post)).drop (count pre + k)).take n).map (widen u signed)) := by
    rw [List.map_append, loop_pre b u hb signed vals pad hv h8 pre hpre, happ, ← hlpre, ← List.drop_drop, List.drop_left]
    rcases Nat.eq_zero_or_pos k with h0 | h0
    · rw [h0, List.drop_zero]
      exact loop_zero b u hb hbu hu signed vals pad hv h8 _ hrest n
    · have hkn : n ≤ r.2 - r.1 - k := by omega
      rcases Nat.eq_zero_or_pos n with hn0 | hn0
      · rw [hn0, loop_none b u hb signed vals pad hv h8]
        simp
      · have h1 := rowsOf_length b hb vals pad hv h8 vals [r] (by simpa using hrest r List.mem_cons_self)
        have h2 : count [r] = r.2 - r.1 := by simp [count]
        have hc : rowsOf vals (r :: post) = rowsOf vals [r] ++ rowsOf vals post := by simp [rowsOf]
        rw [List.map_cons, loop_some b u hb hbu hu signed vals pad hv h8 r (hrest r List.mem_cons_self) _ k n (by omega), Nat.sub_eq_zero_of_le hkn, loop_none b u hb signed vals pad hv h8,
          hc, List.drop_append_of_le_length (by omega), List.take_append_of_le_length (by rw [List.length_drop]; omega)]
        simp
  unfold decode
  rw [hloop]
  have : (((rowsOf vals (pre ++ r :: post)).drop (count pre + k)).take n).length = n := by
    rw [List.length_take, List.length_drop, hlen]
    omega
  simp only [Option.map_some, List.length_map, this, Nat.sub_self, List.replicate_zero, List.append_nil]

include hbu hu in
theorem drain_clean (ranges : List (Nat × Nat)) (hr : ∀ r ∈ ranges, r.1 ≤ r.2 ∧ r.2 ≤ vals.length) : ∀ (batches : List Nat) (d : Nat),
    d + batches.sum ≤ count ranges → (∀ before n after, batches = before ++ n :: after → Clean ranges (d + before.sum) n) →
    drain b u signed (ranges.map (scheduleRange b (vals.flatten ++ pad))) batches d = some ((((rowsOf vals ranges).drop d).take batches.sum).map (widen u signed)) := by
  intro batches
  induction batches with
  | nil => intro d _ _; simp [drain]
  | cons n batches ih =>
    intro d hd hc
    rw [List.sum_cons] at hd
    have h1 := decode_clean b u hb hbu hu signed vals pad hv h8 ranges hr d n (by simpa using hc [] n batches rfl) (by omega)
    have h2 := ih (d + n) (by omega) (fun before m after h => by
      have := hc (n :: before) m after (by rw [h]; rfl)
      rw [List.sum_cons, ← Nat.add_assoc] at this
      exact this)
    unfold drain
    rw [h1, h2, List.sum_cons, List.take_add, List.drop_drop, List.map_append]

end

/-- The rows of the ranges, from the values to the numbers. -/
theorem rowsOf_map {α β : Type} (f : α → β) (xs : List α) (ranges : List (Nat × Nat)) : rowsOf (xs.map f) ranges = (rowsOf xs ranges).map f := by
  unfold rowsOf
  rw [List.map_flatMap]
  congr 1
  funext r
  rw [List.map_take, List.map_drop]

/-- The rows of the ranges are numbers of the page. -/
theorem mem_rowsOf {α : Type} (xs : List α) (ranges : List (Nat × Nat)) (x : α) (h : x ∈ rowsOf xs ranges) : x ∈ xs := by
  unfold rowsOf at h
  obtain ⟨r, _, h⟩ := List.mem_flatMap.mp h
  exact List.mem_of_mem_drop (List.mem_of_mem_take h)

end Verif.Bitpack
