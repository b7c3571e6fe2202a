import Verif.Conv.Lemmas
/-!
# C100: converted columns have the values of the column
-/
namespace Verif.Conv

/-! ## One value per row -/

/-- A conversion gives an error or the converted values of the rows. -/
def Faithful {α β : Type} (g : α → β) (c : Arr α → Option (Arr β)) : Prop :=
  ∀ a b, a.OK → c a = some b → b.OK ∧ b.vals = a.vals.map (Option.map g)

/-- Casting to bfloat16, and casting between the other types, slices included; nulls are an error in the
former and kept in the latter. -/
theorem C100_cast_to {α β : Type} (down : β → α) (g : α → β) :
    Faithful down (castToBf down) ∧ Faithful g (castPlain g) := by
  constructor
  · intro a b ha hb
    unfold castToBf at hb
    obtain ⟨l, h1, h2⟩ := Option.map_eq_some_iff.1 hb
    subst h2
    refine ⟨ofList_ok _, ?_⟩
    rw [ofList_vals, toNumpy_spec ha h1]
    simp
  · intro a b ha hb
    refine ⟨?_, castPlain_vals hb⟩
    unfold castPlain at hb
    cases hb
    simpa [Arr.OK] using ha

/-- What `BFloat16Array.to_numpy` gives is right exactly if the array is all of its buffer.

Missing: slices and other windows (`C100_slice_violated`). -/
theorem C100_bf16_numpy_partial {α : Type} {a : Arr α} (ha : a.OK) {l : List α} (hl : toNumpyBf a = some l) :
    a.vals = l.map some ↔ a.off = 0 ∧ a.len = a.buf.length := by
  unfold toNumpyBf at hl
  split at hl
  · cases hl
  · rename_i hn
    cases hl
    have hv := vals_of_valid ha (by simpa using hn)
    unfold Arr.OK at ha
    constructor
    · intro h
      have := congrArg List.length h
      rw [vals_length, List.length_map] at this
      omega
    · rintro ⟨h1, h2⟩
      rw [hv, h1, h2]
      simp

/-- To NumPy and back: the values; and casting to bfloat16 and back changes every value only by what the two
conversions of values do. -/
theorem C100_bf16_round_trip {α β : Type} (up : α → β) (down : β → α) :
    (∀ l : List α, toNumpyBf (ofList l) = some l) ∧
    (∀ (a : Arr β) (b : Arr α), a.OK → castToBf down a = some b →
      ∃ d, castFromBf up b = some d ∧ d.vals = a.vals.map (Option.map (fun x => up (down x)))) := by
  have h0 : ∀ l : List α, toNumpyBf (ofList l) = some l := by
    intro l
    simp [toNumpyBf, ofList, Arr.hasNull]
  refine ⟨h0, fun a b ha hb => ?_⟩
  unfold castToBf at hb
  obtain ⟨l, h1, h2⟩ := Option.map_eq_some_iff.1 hb
  subst h2
  unfold castFromBf
  rw [h0]
  refine ⟨_, rfl, ?_⟩
  rw [ofList_vals, toNumpy_spec ha h1]
  simp

/-- Full claim for the cast from bfloat16. -/
def C100_statement : Prop := ∀ (α β : Type) (up : α → β), Faithful up (castFromBf up)

/-- Casting from bfloat16 is right for arrays that are all of their buffer, and of the wrong length for all
others. -/
theorem C100_cast_from_partial {α β : Type} (up : α → β) {a : Arr α} {b : Arr β} (ha : a.OK)
    (hb : castFromBf up a = some b) :
    (a.off = 0 ∧ a.len = a.buf.length → b.vals = a.vals.map (Option.map up)) ∧
    (¬ (a.off = 0 ∧ a.len = a.buf.length) → b.vals.length ≠ a.vals.length) := by
  unfold castFromBf at hb
  obtain ⟨l, h1, h2⟩ := Option.map_eq_some_iff.1 hb
  subst h2
  constructor
  · intro h
    rw [ofList_vals, (C100_bf16_numpy_partial ha h1).2 h]
    simp
  · intro h
    have hl : l = a.buf := by
      unfold toNumpyBf at h1
      split at h1
      · cases h1
      · exact (Option.some.inj h1).symm
    rw [ofList_vals, vals_length]
    simp only [List.length_map]
    rw [hl]
    unfold Arr.OK at ha
    omega

/-- Two of four values. -/
def window : Arr Nat := (ofList [10, 20, 30, 40]).slice 1 2

example : window.vals = [some 20, some 30] ∧ toNumpyBf window = some [10, 20, 30, 40] ∧
    ((castFromBf (· * 2) window).map Arr.vals) = some [some 20, some 40, some 60, some 80] ∧
    ((castToBf (· / 10) window).map Arr.vals) = some [some 2, some 3] := by decide

/-- A slice of a bfloat16 array is converted to all of the array it was cut from. -/
theorem C100_slice_violated : ¬ C100_statement := by
  intro h
  have h1 := (h Nat Nat (· * 2) window (ofList [20, 40, 60, 80]) (by unfold Arr.OK; decide) rfl).2
  exact absurd h1 (by decide)

/-! ## Vectors -/

theorem row_slice {α : Type} (f : Fsl α) (i : Nat) (hi : i < f.len) :
    ((f.values.slice (f.off * f.size) (f.len * f.size)).vals.drop (i * f.size)).take f.size = f.row (f.off + i) := by
  rw [vals_slice]
  unfold Fsl.row
  rw [List.drop_take, List.take_take, List.drop_drop, Nat.add_mul]
  congr 1
  have : (i + 1) * f.size ≤ f.len * f.size := Nat.mul_le_mul_right _ hi
  rw [Nat.succ_mul] at this
  omega

/-- `_fsl_to_tensor`, for slices of any array: row `i` of the tensor is list `i` of the column, unless that
is null; there is a row for every list.  Missing: null lists, which the tensor does not show
(`C100_null_vectors_violated`). -/
theorem C100_tensor_partial {α : Type} {f : Fsl α} (hf : f.OK) {t : List (List α)} (ht : fslToTensor f = some t) :
    t.length = f.len ∧ (∀ i, i < f.len → (t[i]?).map (List.map some) = some (f.row (f.off + i))) ∧
      ((∀ i, i < f.len → f.valid (f.off + i) = true) → f.lists = t.map (fun v => some (v.map some))) := by
  obtain ⟨hv, hfit, hs⟩ := hf
  unfold fslToTensor at ht
  obtain ⟨l, h1, h2⟩ := Option.bind_eq_some_iff.1 ht
  have h3 := toNumpy_spec (slice_ok hv _ _) h1
  have hlen : l.length = f.len * f.size := by
    have := congrArg List.length h3
    rw [vals_slice, List.length_take, List.length_drop, vals_length, List.length_map] at this
    rw [Nat.add_mul] at hfit
    omega
  obtain ⟨_, _, h4⟩ := reshape_spec h2
  rw [hlen, Nat.mul_div_cancel _ hs] at h4
  have hrow : ∀ i, i < f.len → (t[i]?).map (List.map some) = some (f.row (f.off + i)) := by
    intro i hi
    rw [h4, List.getElem?_map, List.getElem?_range hi]
    simp only [Option.map_some, List.map_take, List.map_drop]
    rw [← h3, row_slice f i hi]
  have htl : t.length = f.len := by rw [h4]; simp
  refine ⟨htl, hrow, fun hval => ?_⟩
  apply List.ext_getElem?
  intro i
  by_cases hi : i < f.len
  · have h5 := hrow i hi
    unfold Fsl.lists
    rw [List.getElem?_map, List.getElem?_range hi, List.getElem?_map]
    rw [List.getElem?_eq_getElem (by omega)] at h5 ⊢
    simp only [Option.map_some, hval i hi, if_true] at h5 ⊢
    rw [← Option.some.inj h5]
  · rw [List.getElem?_eq_none (by rw [lists_length]; omega), List.getElem?_eq_none (by simp; omega)]

/-- Three vectors of two, the second null, in a child of eight. -/
def vectors : Fsl Nat := ⟨ofList [1, 2, 3, 4, 5, 6, 7, 8], 2, 1, 3, fun i => i != 2⟩

example : vectors.lists = [some [some 3, some 4], none, some [some 7, some 8]] ∧
    fslToTensor vectors = some [[3, 4], [5, 6], [7, 8]] := by decide

def C100_null_vectors_statement : Prop :=
  ∀ (α : Type) (f : Fsl α) (t : List (List α)), f.OK → fslToTensor f = some t → f.lists = t.map (fun v => some (v.map some))

/-- A null vector becomes whatever is in its place. -/
theorem C100_null_vectors_violated : ¬ C100_null_vectors_statement := by
  intro h
  have := h Nat vectors [[3, 4], [5, 6], [7, 8]] ⟨by unfold Arr.OK; decide, by decide, by decide⟩ rfl
  exact absurd this (by decide)

/-- Full claim for the other two conversions of vectors. -/
def C100_vectors_statement : Prop :=
  (∀ (α β : Type) (g : α → β) (c : Arr α → Option (Arr β)) (f : Fsl α) (r : Fsl β), Faithful g c → f.OK →
    castFsl c f = some r → r.lists = f.lists.map (Option.map (List.map (Option.map g)))) ∧
  (∀ (α : Type) (f : Fsl α) (t : List (List α)), f.OK → (∀ i, f.valid i = true) → kmeansToTensor f = some t →
    f.lists = t.map (fun v => some (v.map some)))

/-- Casting vectors, and `KMeans._to_tensor`, are right if the window has all lists of the child and no list
is null; otherwise a cast has no nulls and one list for every list of the child.

Missing: slices and null vectors (`C100_vectors_violated`). -/
theorem C100_vectors_partial {α β : Type} {g : α → β} {c : Arr α → Option (Arr β)} {f : Fsl α} (hc : Faithful g c)
    (hf : f.OK) :
    (∀ r, castFsl c f = some r → (∀ x ∈ r.lists, x ≠ none) ∧ r.lists.length * f.size = f.values.len ∧
      (f.off = 0 → f.len * f.size = f.values.len → (∀ i, i < f.len → f.valid i = true) →
        r.lists = f.lists.map (Option.map (List.map (Option.map g))))) ∧
    (∀ t, kmeansToTensor f = some t → t.length * f.size = f.values.len ∧
      (f.off = 0 → f.len * f.size = f.values.len → (∀ i, i < f.len → f.valid i = true) →
        f.lists = t.map (fun v => some (v.map some)))) := by
  obtain ⟨hv, hfit, hs⟩ := hf
  constructor
  · intro r hr
    unfold castFsl at hr
    obtain ⟨v, h1, h2⟩ := Option.bind_eq_some_iff.1 hr
    obtain ⟨hvo, hvv⟩ := hc _ _ hv h1
    unfold fromArrays at h2
    split at h2
    · cases h2
    · rename_i hcd
      cases h2
      have hmod : v.len % f.size = 0 := by
        rcases Nat.eq_zero_or_pos (v.len % f.size) with h | h
        · exact h
        · exact absurd (.inr (by omega)) hcd
      have hdm := Nat.div_add_mod v.len f.size
      rw [Nat.mul_comm, hmod, Nat.add_zero] at hdm
      have hvl : v.len = f.values.len := by
        have := congrArg List.length hvv
        rw [vals_length, List.length_map, vals_length] at this
        exact this
      refine ⟨?_, ?_, ?_⟩
      · intro x hx
        unfold Fsl.lists at hx
        obtain ⟨i, _, hi⟩ := List.mem_map.1 hx
        rw [← hi]
        simp
      · rw [lists_length]
        simp only
        omega
      · intro ho hl hval
        have hlen : v.len / f.size = f.len := by
          rw [hvl, ← hl, Nat.mul_div_cancel _ hs]
        unfold Fsl.lists
        simp only [hlen, List.map_map]
        apply List.map_congr_left
        intro i hi
        simp only [Function.comp, ho, Nat.zero_add, hval i (List.mem_range.1 hi), if_true, Option.map_some, Fsl.row, hvv,
          List.map_take, List.map_drop]
  · intro t ht
    unfold kmeansToTensor at ht
    obtain ⟨l, h1, h2⟩ := Option.bind_eq_some_iff.1 ht
    have h3 := toNumpy_spec hv h1
    obtain ⟨_, h5, h4⟩ := reshape_spec h2
    have hll : l.length = f.values.len := by
      have := congrArg List.length h3
      rw [vals_length, List.length_map] at this
      exact this.symm
    refine ⟨by rw [h4]; simp; omega, fun ho hl hval => ?_⟩
    have hlen : l.length / f.size = f.len := by
      rw [hll, ← hl, Nat.mul_div_cancel _ hs]
    unfold Fsl.lists
    rw [h4, hlen, List.map_map]
    apply List.map_congr_left
    intro i hi
    simp only [Function.comp, ho, Nat.zero_add, hval i (List.mem_range.1 hi), if_true, Fsl.row, h3,
      List.map_take, List.map_drop]

/-- Both parts fail: a slice of vectors is cast to all vectors it was cut from. -/
theorem C100_vectors_violated : ¬ C100_vectors_statement ∧
    ¬ (∀ (f : Fsl Nat) (t : List (List Nat)), f.OK → (∀ i, f.valid i = true) → kmeansToTensor f = some t →
      f.lists = t.map (fun v => some (v.map some))) := by
  constructor
  · intro h
    have h1 := h.1 Nat Nat (· + 1) (castPlain (· + 1)) vectors ⟨⟨[2, 3, 4, 5, 6, 7, 8, 9], 0, 8, fun _ => true⟩, 2, 0, 4, fun _ => true⟩
      (C100_cast_to (fun x => x) (· + 1)).2 ⟨by unfold Arr.OK; decide, by decide, by decide⟩ rfl
    exact absurd h1 (by decide)
  · intro h
    have h1 := h { vectors with valid := fun _ => true } [[1, 2], [3, 4], [5, 6], [7, 8]]
      ⟨by unfold Arr.OK; decide, by decide, by decide⟩ (fun _ => rfl) rfl
    exact absurd h1 (by decide)

theorem C100_nonvacuous :
    ∃ (f : Fsl Nat) (r : Fsl Nat), f.OK ∧ castFsl (castPlain (· + 1)) f = some r ∧ 1 < f.len ∧
      r.lists = [some [some 2, some 3], some [some 4, some 5]] ∧ fslToTensor (f.slice 1 1) = some [[3, 4]] :=
  ⟨⟨ofList [1, 2, 3, 4], 2, 0, 2, fun _ => true⟩, ⟨⟨[2, 3, 4, 5], 0, 4, fun _ => true⟩, 2, 0, 2, fun _ => true⟩,
    ⟨by unfold Arr.OK; decide, by decide, by decide⟩, rfl, by decide, by decide, by decide⟩

end Verif.Conv
