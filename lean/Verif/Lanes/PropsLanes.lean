import Verif.Lanes.Write

/-! # C121: integers in pages of chunks -/

namespace Verif.Lanes

/-- What a writer gets: arrays of values, each with whether it is valid (of a null there is still a value in the buffer). -/
abbrev Arrays := List (List (Nat × Bool))

/-- The values as the writer sees them when it chooses the width. -/
def shown (arrays : Arrays) : List (List (Option Nat)) := arrays.map (·.map (fun v => if v.2 then some v.1 else none))

/-- The page of the arrays. -/
def write (T : Nat) (arrays : Arrays) : Option (List (List Nat)) := encode T (bitWidth (shown arrays)) (arrays.flatten.map (·.1))

/-- The numbers that are not null come out, in batches of the given sizes. -/
def RightBatches (rows : List (Nat × Bool)) (batches : List Nat) (out : List (List Nat)) : Prop :=
  out.map List.length = batches ∧ ∀ (i x : Nat), rows[i]? = some (x, true) → out.flatten[i]? = some x

/-- Writing integers and reading ranges of rows in order, where ranges may touch and rows may be asked for several times, gives the numbers that are not null. -/
def C121_statement : Prop :=
  ∀ (T : Nat) (arrays : Arrays) (ranges : List Range) (batches : List Nat), (T = 8 ∨ T = 16 ∨ T = 32 ∨ T = 64) → (∀ a ∈ arrays, ∀ v ∈ a, v.1 < 2 ^ T) →
    ranges ≠ [] → (∀ r ∈ ranges, r.1 < r.2 ∧ r.2 ≤ arrays.flatten.length) →
    (∀ before q q' after, ranges = before ++ q :: q' :: after → q.1 ≤ q'.1 ∧ q.2 ≤ q'.2) →
    batches.sum = (rowsOf arrays.flatten ranges).length →
    ∃ page out, write T arrays = some page ∧ read T (bitWidth (shown arrays)) page ranges batches = some out ∧ RightBatches (rowsOf arrays.flatten ranges) batches out

theorem part_map {α β : Type} (f : α → β) (xs : List α) (a b : Nat) : part (xs.map f) a b = (part xs a b).map f := by
  unfold part
  rw [List.map_take, List.map_drop]

theorem rowsOf_map {α β : Type} (f : α → β) (xs : List α) (ranges : List Range) : rowsOf (xs.map f) ranges = (rowsOf xs ranges).map f := by
  unfold rowsOf
  rw [List.map_flatMap]
  congr 1
  funext r
  exact part_map f xs r.1 r.2

theorem mem_rowsOf {α : Type} (xs : List α) (ranges : List Range) (x : α) (h : x ∈ rowsOf xs ranges) : x ∈ xs := by
  obtain ⟨r, _, h⟩ := List.mem_flatMap.mp h
  exact List.mem_of_mem_drop (List.mem_of_mem_take h)

theorem rowsOf_append {α : Type} (xs ys : List α) (ranges : List Range) (h : ∀ r ∈ ranges, r.1 < r.2 ∧ r.2 ≤ xs.length) : rowsOf (xs ++ ys) ranges = rowsOf xs ranges := by
  induction ranges with
  | nil => rfl
  | cons r ranges ih =>
    have h1 := h r List.mem_cons_self
    have h2 := ih (fun r hr => h r (List.mem_cons_of_mem _ hr))
    unfold rowsOf at h2 ⊢
    rw [List.flatMap_cons, List.flatMap_cons, h2]
    congr 1
    unfold part
    rw [List.drop_append_of_le_length (by omega), List.take_append_of_le_length (by rw [List.length_drop]; omega)]

theorem drain_spec (loaded : List Nat) : ∀ (batches : List Nat) (d : Nat), d + batches.sum ≤ loaded.length →
    ∃ out, drain loaded batches d = some out ∧ out.map List.length = batches ∧ out.flatten = (loaded.drop d).take batches.sum := by
  intro batches
  induction batches with
  | nil => intro d _; exact ⟨[], rfl, rfl, by simp⟩
  | cons n batches ih =>
    intro d h
    rw [List.sum_cons] at h
    obtain ⟨out, h1, h2, h3⟩ := ih (d + n) (by omega)
    refine ⟨(loaded.drop d).take n :: out, ?_, ?_, ?_⟩
    · unfold drain slice
      rw [if_pos (by omega), h1]
    · rw [List.map_cons, h2, List.length_take, List.length_drop]
      congr 1
      omega
    · rw [List.flatten_cons, h3, List.sum_cons, List.take_add, List.drop_drop]

/-- What the writer wrote, and what the decoder of ranges has. -/
theorem load_spec (T : Nat) (hT : T = 8 ∨ T = 16 ∨ T = 32 ∨ T = 64) (arrays : Arrays) (hv : ∀ a ∈ arrays, ∀ v ∈ a, v.1 < 2 ^ T) :
    ∃ page, write T arrays = some page ∧
      (∀ (j : Nat) (p : List Nat), page[j]? = some p → Mini.unpack T (bitWidth (shown arrays)) p =
        some (part ((padded (arrays.flatten.map (·.1))).map (· % 2 ^ bitWidth (shown arrays))) (1024 * j) (1024 * (j + 1)))) ∧
      arrays.flatten.length ≤ 1024 * page.length ∧
      (∀ v ∈ arrays.flatten, v.2 = true → v.1 % 2 ^ bitWidth (shown arrays) = v.1) ∧
      1024 * page.length = (padded (arrays.flatten.map (·.1))).length := by
  obtain ⟨hw0, hwT, hwx⟩ := bitWidth_spec T (by omega) (shown arrays) (by
    intro a ha x hx
    obtain ⟨a', ha', rfl⟩ := List.mem_map.mp ha
    obtain ⟨v, hv', hvx⟩ := List.mem_map.mp hx
    split at hvx
    · cases hvx
      exact hv a' ha' v hv'
    · exact nomatch hvx)
  have hbig : ∀ c ∈ chunks (arrays.flatten.map (·.1)), c.length = 1024 ∧ ∀ x ∈ c, x < 2 ^ T := by
    intro c hc
    obtain ⟨j, hj, hjc⟩ := List.getElem_of_mem hc
    have hget : (chunks (arrays.flatten.map (·.1)))[j]? = some c := by rw [List.getElem?_eq_getElem hj, hjc]
    have h1 := chunks_get _ j c hget
    have h2 := chunks_length (arrays.flatten.map (·.1))
    refine ⟨?_, ?_⟩
    · rw [h1]
      unfold part
      rw [List.length_take, List.length_drop]
      omega
    · intro x hx
      rw [h1] at hx
      have := List.mem_of_mem_drop (List.mem_of_mem_take hx)
      unfold padded at this
      rcases List.mem_append.mp this with h | h
      · obtain ⟨v, hv', rfl⟩ := List.mem_map.mp h
        obtain ⟨a, ha, hva⟩ := List.mem_flatten.mp hv'
        exact hv a ha v hva
      · rw [List.eq_of_mem_replicate h]
        exact Nat.two_pow_pos T
  obtain ⟨page, h1, h2, h3⟩ := packAll_spec T (bitWidth (shown arrays)) hT hw0 hwT _ hbig
  have h4 := chunks_length (arrays.flatten.map (·.1))
  refine ⟨page, h1, ?_, ?_, ?_, by rw [h2]; exact h4⟩
  · intro j p hp
    obtain ⟨c, hc, hu⟩ := h3 j p hp
    rw [hu, chunks_get _ j c hc, part_map]
  · rw [h2, h4]
    unfold padded
    rw [List.length_append, List.length_map]
    exact Nat.le_add_right _ _
  · intro v hvm hvt
    apply Nat.mod_eq_of_lt
    obtain ⟨a, ha, hva⟩ := List.mem_flatten.mp hvm
    refine hwx (a.map (fun v => if v.2 then some v.1 else none)) (List.mem_map.mpr ⟨a, ha, rfl⟩) v.1 (List.mem_map.mpr ⟨v, hva, ?_⟩)
    rw [hvt]
    rfl

/-- Any ranges, in any order and with repetitions, as long as no range starts in the chunk at whose end the range before it ends; missing: these. -/
theorem C121_read_partial (T : Nat) (arrays : Arrays) (ranges : List Range) (batches : List Nat) (hT : T = 8 ∨ T = 16 ∨ T = 32 ∨ T = 64)
    (hv : ∀ a ∈ arrays, ∀ v ∈ a, v.1 < 2 ^ T) (hne : ranges ≠ []) (hr : ∀ r ∈ ranges, r.1 < r.2 ∧ r.2 ≤ arrays.flatten.length)
    (hpair : ∀ before q q' after, ranges = before ++ q :: q' :: after → q'.1 / 1024 = (q.2 - 1) / 1024 → q.2 % 1024 ≠ 0)
    (hsum : batches.sum = (rowsOf arrays.flatten ranges).length) :
    ∃ page out, write T arrays = some page ∧ read T (bitWidth (shown arrays)) page ranges batches = some out ∧ RightBatches (rowsOf arrays.flatten ranges) batches out := by
  obtain ⟨page, h1, h2, h3, h4, _⟩ := load_spec T hT arrays hv
  cases ranges with
  | nil => exact absurd rfl hne
  | cons r rest =>
    have hr0 := hr r List.mem_cons_self
    have hload : load T (bitWidth (shown arrays)) page (r :: rest) = some ((rowsOf arrays.flatten (r :: rest)).map (fun v => v.1 % 2 ^ bitWidth (shown arrays))) := by
      have := scheduleFrom_spec (Mini.unpack T (bitWidth (shown arrays))) page _ h2 rest r [] r hr0.1 rfl (by omega) (by omega)
        (fun q hq => ⟨(hr q (List.mem_cons_of_mem _ hq)).1, Nat.le_trans (hr q (List.mem_cons_of_mem _ hq)).2 h3⟩) hpair
      unfold load schedule
      simp only
      unfold groupOf
      rw [this]
      rw [List.cons_append, List.nil_append, rowsOf_map]
      unfold padded
      rw [rowsOf_append _ _ _ (by rw [List.length_map]; exact hr), rowsOf_map, List.map_map]
      rfl
    obtain ⟨out, h5, h6, h7⟩ := drain_spec ((rowsOf arrays.flatten (r :: rest)).map (fun v => v.1 % 2 ^ bitWidth (shown arrays))) batches 0 (by rw [List.length_map]; omega)
    refine ⟨page, out, h1, ?_, h6, ?_⟩
    · unfold read
      rw [hload]
      exact h5
    · intro i x hx
      rw [h7, List.drop_zero, List.take_of_length_le (by rw [List.length_map]; omega), List.getElem?_map, hx]
      have := h4 (x, true) (mem_rowsOf _ _ _ (List.mem_of_getElem? hx)) rfl
      simp only [Option.map_some, this]

/-- Ranges in order that do not overlap (all scans, and takes of different rows in order) are read right. -/
theorem C121_in_order_partial (T : Nat) (arrays : Arrays) (ranges : List Range) (batches : List Nat) (hT : T = 8 ∨ T = 16 ∨ T = 32 ∨ T = 64)
    (hv : ∀ a ∈ arrays, ∀ v ∈ a, v.1 < 2 ^ T) (hne : ranges ≠ []) (hr : ∀ r ∈ ranges, r.1 < r.2 ∧ r.2 ≤ arrays.flatten.length)
    (hpair : ∀ before q q' after, ranges = before ++ q :: q' :: after → q.2 ≤ q'.1) (hsum : batches.sum = (rowsOf arrays.flatten ranges).length) :
    ∃ page out, write T arrays = some page ∧ read T (bitWidth (shown arrays)) page ranges batches = some out ∧ RightBatches (rowsOf arrays.flatten ranges) batches out := by
  apply C121_read_partial T arrays ranges batches hT hv hne hr ?_ hsum
  intro before q q' after h hs
  have h1 := hpair before q q' after h
  have h2 := hr q (by rw [h]; simp)
  omega

/-- The last row of a chunk, asked for twice, is there only once, for every page: a batch with both panics. -/
theorem C121_twice_violated (T : Nat) (arrays : Arrays) (j : Nat) (hT : T = 8 ∨ T = 16 ∨ T = 32 ∨ T = 64) (hv : ∀ a ∈ arrays, ∀ v ∈ a, v.1 < 2 ^ T)
    (hj : 1024 * j + 1024 ≤ arrays.flatten.length) :
    ∃ page, write T arrays = some page ∧
      read T (bitWidth (shown arrays)) page [(1024 * j + 1023, 1024 * j + 1024), (1024 * j + 1023, 1024 * j + 1024)] [2] = none := by
  obtain ⟨page, h1, h2, h3, _, h4⟩ := load_spec T hT arrays hv
  refine ⟨page, h1, ?_⟩
  have hlt : j < page.length := by omega
  have hu := h2 j page[j] (List.getElem?_eq_getElem hlt)
  generalize hc : part ((padded (arrays.flatten.map (·.1))).map (· % 2 ^ bitWidth (shown arrays))) (1024 * j) (1024 * (j + 1)) = c at hu
  have hlen : c.length = 1024 := by
    rw [← hc]
    unfold part
    rw [List.length_take, List.length_drop, List.length_map, ← h4]
    omega
  have e1 : (1024 * j + 1023) / 1024 = j := by omega
  have e2 : (1024 * j + 1024 - 1) / 1024 = j := by omega
  have e3 : (1024 * j + 1023) % 1024 = 1023 := by omega
  have hs : schedule [(1024 * j + 1023, 1024 * j + 1024), (1024 * j + 1023, 1024 * j + 1024)] =
      some [⟨j, j + 1, [(1024 * j + 1023, 1024 * j + 1024), (1024 * j + 1023, 1024 * j + 1024)]⟩] := by
    simp only [schedule, scheduleFrom, groupOf, e1, e2, if_true, List.cons_append, List.nil_append]
  have hp : (page.drop j).take (j + 1 - j) = [page[j]] := by
    rw [List.drop_eq_getElem_cons hlt, show j + 1 - j = 0 + 1 by omega, List.take_succ_cons, List.take_zero]
  have hl : load T (bitWidth (shown arrays)) page [(1024 * j + 1023, 1024 * j + 1024), (1024 * j + 1023, 1024 * j + 1024)] = some (c.drop 1023) := by
    unfold load
    rw [hs]
    simp only [takeGroups, takeGroup, hp, takeChunks, hu, takeChunk, e3]
    rw [if_pos (by omega)]
    simp
  unfold read
  rw [hl]
  simp only [drain, slice, List.length_drop, hlen]
  rw [if_neg (by omega)]

theorem C121_violated : ¬ C121_statement := by
  intro h
  have hv : ∀ a ∈ [List.replicate 1024 ((7 : Nat), true)], ∀ v ∈ a, v.1 < 2 ^ 8 := by
    intro a ha v hva
    rw [List.mem_singleton.mp ha] at hva
    rw [List.eq_of_mem_replicate hva]
    decide
  have hl : ([List.replicate 1024 ((7 : Nat), true)] : Arrays).flatten.length = 1024 := by
    rw [List.flatten_singleton, List.length_replicate]
  obtain ⟨page, h1, h2⟩ := C121_twice_violated 8 [List.replicate 1024 (7, true)] 0 (Or.inl rfl) hv (by rw [hl]; decide)
  obtain ⟨page', out, h3, h4, _⟩ := h 8 [List.replicate 1024 (7, true)] [(1023, 1024), (1023, 1024)] [2] (Or.inl rfl) hv (by decide)
    (by
      intro r hr
      rw [hl]
      have : r = (1023, 1024) := by simpa using hr
      rw [this]
      decide)
    (by
      intro before q q' after hb
      have hq : q ∈ [(1023, 1024), ((1023 : Nat), (1024 : Nat))] := by rw [hb]; simp
      have hq' : q' ∈ [(1023, 1024), ((1023 : Nat), (1024 : Nat))] := by rw [hb]; simp
      have e1 : q = (1023, 1024) := by simpa using hq
      have e2 : q' = (1023, 1024) := by simpa using hq'
      rw [e1, e2]
      decide)
    (by
      rw [show ([List.replicate 1024 ((7 : Nat), true)] : Arrays).flatten = List.replicate 1024 ((7 : Nat), true) from List.flatten_singleton]
      unfold rowsOf part
      rw [List.flatMap_cons, List.flatMap_cons, List.flatMap_nil, List.length_append, List.length_append, List.length_take, List.length_drop, List.length_replicate]
      rfl)
  rw [h1] at h3
  cases h3
  rw [show [(1024 * 0 + 1023, 1024 * 0 + 1024), (1024 * 0 + 1023, 1024 * 0 + 1024)] = [((1023 : Nat), (1024 : Nat)), (1023, 1024)] from rfl] at h2
  rw [h2] at h4
  exact nomatch h4

/-- Two arrays of 1500 numbers of two bits and one null with more bits: three ranges across chunks meet the conditions, and so do rows that are asked for twice. -/
theorem C121_nonvacuous :
    let arrays : Arrays := [List.replicate 1000 (3, true), (200, false) :: List.replicate 499 (1, true)]
    (∀ a ∈ arrays, ∀ v ∈ a, v.1 < 2 ^ 8) ∧ arrays.flatten.length = 1500 ∧
      (∀ r ∈ [((0 : Nat), (1000 : Nat)), (1000, 1030), (1030, 1500)], r.1 < r.2 ∧ r.2 ≤ arrays.flatten.length) ∧
      schedule [(0, 1000), (1000, 1030), (1030, 1500)] = some [⟨0, 2, [(0, 1000), (1000, 1030), (1030, 1500)]⟩] ∧
      schedule [(5, 6), (5, 6), (1200, 1201)] = some [⟨0, 1, [(5, 6), (5, 6)]⟩, ⟨1, 2, [(1200, 1201)]⟩] := by
  have hl : ([List.replicate 1000 (3, true), (200, false) :: List.replicate 499 (1, true)] : Arrays).flatten.length = 1500 := by
    rw [List.length_flatten, List.map_cons, List.map_cons, List.length_cons, List.length_replicate, List.length_replicate]
    rfl
  refine ⟨?_, hl, ?_, by decide, by decide⟩
  · intro a ha v hv
    simp only [List.mem_cons, List.not_mem_nil, or_false] at ha
    rcases ha with rfl | rfl
    · rw [List.eq_of_mem_replicate hv]
      decide
    · rcases List.mem_cons.mp hv with rfl | hv
      · decide
      · rw [List.eq_of_mem_replicate hv]
        decide
  · intro r hr
    rw [hl]
    simp only [List.mem_cons, List.not_mem_nil, or_false] at hr
    rcases hr with rfl | rfl | rfl <;> decide

end Verif.Lanes
