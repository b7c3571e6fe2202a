import Verif.Read.Model

/-!
# C30: read parameters

`Proper p`: a range whose start does not exceed its end.  `requested p total` lists the offsets that
the parameters ask for, written without the code's conversions.
-/
namespace Verif.Read
open Verif.RowIds.Seq (Params)

/-- A Rust range `s..e` with `s ≤ e`. -/
def Proper : Params → Prop
  | .range s e => s ≤ e
  | _ => True

/-- The offsets asked for, of a file with `total` rows. -/
def requested : Params → Nat → List Nat
  | .indices l, _ => l
  | .range s e, _ => (List.range e).filter (fun o => decide (s ≤ o))
  | .full, total => List.range total
  | .to e, _ => List.range e
  | .from s, total => (List.range total).filter (fun o => decide (s ≤ o))

theorem range_filter_ge (s e : Nat) : (List.range e).filter (fun o => decide (s ≤ o)) = List.range' s (e - s) := by
  by_cases h : s ≤ e
  · obtain ⟨k, rfl⟩ := Nat.exists_eq_add_of_le h
    rw [List.range_eq_range', ← List.range'_append_1 (s := 0) (m := s) (n := k), List.filter_append]
    rw [List.filter_eq_nil_iff.mpr, List.filter_eq_self.mpr]
    · simp
    · intro a ha; simp [List.mem_range'_1] at ha; simp; omega
    · intro a ha; simp [List.mem_range'_1] at ha; simp; omega
  · rw [show e - s = 0 by omega]
    simp; intro a ha; omega

theorem window_range' (a n start len : Nat) (h : start + len ≤ n) :
    ((List.range' a n).drop start).take len = List.range' (a + start) len := by
  apply List.ext_getElem
  · simp; omega
  · intro i h1 h2; simp

theorem u32Range_eq {a b : Nat} (h : b < U32) (hab : a ≤ b) : u32Range a b = List.range' a (b - a) := by
  unfold u32Range; rw [Nat.mod_eq_of_lt h, Nat.mod_eq_of_lt (by omega)]

/-- C30: expansion yields the requested offsets, for parameters valid for the file. -/
theorem C30_offsets (p : Params) (total : Nat) (ht : total < U32) (hv : validLen p total = true)
    (hp : Proper p) : toOffsetsTotal p total = requested p total := by
  cases p with
  | range s e =>
    simp [validLen] at hv
    have hp : s ≤ e := hp
    simp only [toOffsetsTotal, requested, range_filter_ge]
    rw [u32Range_eq (by omega) hp]
  | full =>
    simp only [toOffsetsTotal, requested]
    rw [u32Range_eq ht (Nat.zero_le _), List.range_eq_range']; rfl
  | to e =>
    simp [validLen] at hv
    simp only [toOffsetsTotal, requested]
    rw [u32Range_eq (by omega) (Nat.zero_le _), List.range_eq_range']; rfl
  | «from» s =>
    simp [validLen] at hv
    simp only [toOffsetsTotal, requested, range_filter_ge]
    rw [u32Range_eq ht (by omega)]
  | indices l => rfl

example : requested (.range 3 6) 10 = [3, 4, 5] ∧ requested (.from 8) 10 = [8, 9] := by decide

/-- C30: where `to_offsets` answers, it agrees with the expansion that knows the file length. -/
theorem C30_to_offsets (p : Params) (total : Nat) (l : List Nat) (h : toOffsets p = some l) :
    l = toOffsetsTotal p total := by
  cases p <;> simp_all [toOffsets, toOffsetsTotal]

/-- C30: slicing and expanding commute, for windows inside the selection. -/
theorem C30_slice_offsets (p : Params) (total start len : Nat) (ht : total < U32)
    (hv : validLen p total = true) (hp : Proper p) (hw : start + len ≤ (requested p total).length) :
    ∃ p', slice p start len = some p' ∧
      toOffsets p' = some (((requested p total).drop start).take len) := by
  cases p with
  | range s e =>
    simp [validLen] at hv
    have hp : s ≤ e := hp
    simp only [requested, range_filter_ge, List.length_range'] at hw ⊢
    refine ⟨.range (s + start) (s + start + len), ?_, ?_⟩
    · simp [slice]; omega
    · simp only [toOffsets]
      rw [u32Range_eq (by omega) (by omega), window_range' _ _ _ _ (by omega), Nat.add_sub_cancel_left]; try simp
  | full =>
    simp only [requested, List.length_range] at hw ⊢
    refine ⟨_, rfl, ?_⟩
    simp only [toOffsets]
    rw [u32Range_eq (by omega) (by omega), List.range_eq_range', window_range' _ _ _ _ (by omega), Nat.add_sub_cancel_left]; try simp
  | to e =>
    simp [validLen] at hv
    simp only [requested, List.length_range] at hw ⊢
    refine ⟨.range start (start + len), ?_, ?_⟩
    · simp [slice]; omega
    · simp only [toOffsets]
      rw [u32Range_eq (by omega) (by omega), List.range_eq_range', window_range' _ _ _ _ (by omega), Nat.add_sub_cancel_left]; try simp
  | «from» s =>
    simp [validLen] at hv
    simp only [requested, range_filter_ge, List.length_range'] at hw ⊢
    refine ⟨_, rfl, ?_⟩
    simp only [toOffsets]
    rw [u32Range_eq (by omega) (by omega), window_range' _ _ _ _ (by omega), Nat.add_sub_cancel_left]; try simp
  | indices l =>
    simp only [requested] at hw ⊢
    exact ⟨.indices ((l.drop start).take len), by simp [slice]; omega, rfl⟩

example : (slice (.range 10 20) 5 3).bind toOffsets = some [15, 16, 17] ∧
    (slice (.indices [1, 3, 5, 7, 9]) 1 3).bind toOffsets = some [3, 5, 7] := by decide

/-- C30: a window that leaves the selection is refused, for the kinds whose size is known without the
file (the documentation of `slice` promises it for all; `RangeFrom` and `RangeFull` leave it to the
caller). -/
theorem C30_slice_error (p : Params) (total start len : Nat) (hp : Proper p)
    (hk : ∀ s, p ≠ .from s) (hf : p ≠ .full) :
    slice p start len = none ↔ (requested p total).length < start + len := by
  cases p with
  | range s e =>
    have hp : s ≤ e := hp
    simp only [requested, range_filter_ge, List.length_range', slice]
    split <;> simp <;> omega
  | full => exact absurd rfl hf
  | to e =>
    simp only [requested, List.length_range, slice]
    split <;> simp <;> omega
  | «from» s => exact absurd rfl (hk s)
  | indices l =>
    simp only [requested, slice]
    split <;> simp <;> omega

/-- C30, the promise "You cannot slice beyond the bounds of the selection and an attempt to do so will
return an error" (lib.rs:200-201) for every kind. -/
def C30_slice_error_statement : Prop :=
  ∀ (p : Params) (total start len : Nat), Proper p → validLen p total = true →
    (requested p total).length < start + len → slice p start len = none

/-- It fails for `RangeFull` (and `RangeFrom`), which cannot know the length. -/
theorem C30_slice_error_violated : ¬ C30_slice_error_statement := by
  intro h
  have := h .full 5 3 4 trivial (by decide) (by decide)
  simp [slice] at this

/-- C30: slicing twice is slicing once at the sum of the starts. -/
theorem C30_slice_slice (p p' : Params) (a n b m : Nat) (h : slice p a n = some p') (hb : b + m ≤ n) :
    slice p' b m = slice p (a + b) m := by
  cases p with
  | range s e =>
    simp only [slice] at h
    split at h
    · cases h
    · cases h; simp only [slice]; rw [if_neg (by omega), if_neg (by omega)]
      simp [Nat.add_assoc]
  | full =>
    simp only [slice] at h; cases h
    simp only [slice]; rw [if_neg (by omega)]
  | to e =>
    simp only [slice] at h
    split at h
    · cases h
    · cases h; simp only [slice]; rw [if_neg (by omega), if_neg (by omega)]
  | «from» s =>
    simp only [slice] at h; cases h
    simp only [slice]; rw [if_neg (by omega)]
    simp [Nat.add_assoc]
  | indices l =>
    simp only [slice] at h
    split at h
    · cases h
    · cases h; simp only [slice, List.length_take, List.length_drop]; rw [if_neg (by omega), if_neg (by omega)]
      rw [List.drop_take, List.drop_drop, List.take_take, Nat.min_eq_left (by omega)]

/-- C30: valid parameters ask only for rows of the file, and parameters that ask for at least one row
and only for rows of the file are valid. -/
theorem C30_valid (p : Params) (total : Nat) (ht : total < U32) (hp : Proper p)
    (hne : requested p total ≠ []) :
    validLen p total = true ↔ ∀ o ∈ requested p total, o < total := by
  cases p with
  | range s e =>
    have hp : s ≤ e := hp
    simp only [requested, range_filter_ge] at hne ⊢
    have hlt : s < e := by
      rcases Nat.lt_or_ge s e with h | h
      · exact h
      · exact absurd (by simp; omega) hne
    simp only [validLen, Bool.and_eq_true, decide_eq_true_eq, List.mem_range'_1]
    constructor
    · intro h o ho; omega
    · intro h
      have h1 := h (e - 1) ⟨by omega, by omega⟩
      omega
  | full => simp [validLen, requested]
  | to e =>
    simp only [requested] at hne ⊢
    have he : 0 < e := by
      cases e with
      | zero => exact absurd rfl hne
      | succ k => omega
    simp only [validLen, decide_eq_true_eq, List.mem_range]
    constructor
    · intro h o ho; omega
    · intro h; have := h (e - 1) (by omega); omega
  | «from» s =>
    simp only [requested, range_filter_ge] at hne ⊢
    simp only [validLen, decide_eq_true_eq, List.mem_range'_1]
    constructor
    · intro _ o ho; omega
    · intro _
      rcases Nat.lt_or_ge s total with h | h
      · exact h
      · exact absurd (by simp; omega) hne
  | indices l =>
    simp only [validLen, requested, Nat.mod_eq_of_lt ht, List.all_eq_true, decide_eq_true_eq]

example : validLen (.range 3 6) 6 = true ∧ validLen (.range 3 7) 6 = false ∧
    validLen (.indices [5, 0, 5]) 6 = true ∧ validLen (.indices [6]) 6 = false := by decide

/-- C30: an empty selection at the end of the file is refused, one elsewhere is accepted (so validity
of empty ranges is not uniform). -/
theorem C30_empty_range (s total : Nat) : validLen (.range s s) total = decide (s < total) := by
  simp only [validLen]
  rw [Bool.eq_iff_iff]; simp; omega

/-- C30: parameters relative to a batch become parameters relative to the file. -/
theorem C30_file_params (p : Params) (bo rows : Nat) (hb : bo + rows < U32) (hv : validLen p rows = true)
    (hp : Proper p) :
    toOffsets (fileParams bo rows p) = some ((requested p rows).map (fun o => bo + o)) := by
  cases p with
  | range s e =>
    simp [validLen] at hv
    have hp : s ≤ e := hp
    simp only [fileParams, toOffsets, requested, range_filter_ge]
    rw [u32Range_eq (by omega) (by omega), List.map_add_range']
    congr 2
    · omega
    · omega
  | full =>
    simp only [fileParams, toOffsets, requested]
    rw [u32Range_eq (by omega) (by omega), List.range_eq_range', List.map_add_range']
    simp
  | to e =>
    simp [validLen] at hv
    simp only [fileParams, toOffsets, requested]
    rw [u32Range_eq (by omega) (by omega), List.range_eq_range', List.map_add_range']
    congr 2
    omega
  | «from» s =>
    simp [validLen] at hv
    simp only [fileParams, toOffsets, requested, range_filter_ge]
    rw [u32Range_eq (by omega) (by omega), List.map_add_range']
    congr 2
    · omega
    · omega
  | indices l =>
    simp only [fileParams, toOffsets, requested, Option.some.injEq, Nat.mod_eq_of_lt (show bo < U32 by omega)]
    apply List.map_congr_left
    intro a _; omega

example : toOffsets (fileParams 100 10 (.from 7)) = some [107, 108, 109] := by decide

end Verif.Read
