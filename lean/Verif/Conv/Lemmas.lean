import Verif.Conv.Model
/-!
# Lemmas on windows of buffers
-/
namespace Verif.Conv

theorem vals_length {α : Type} (a : Arr α) : a.vals.length = a.len := by simp [Arr.vals]

theorem lists_length {α : Type} (f : Fsl α) : f.lists.length = f.len := by simp [Fsl.lists]

theorem hasNull_false {α : Type} {a : Arr α} : a.hasNull = false ↔ ∀ i, i < a.len → a.valid (a.off + i) = true := by
  simp [Arr.hasNull]

/-- Without nulls the values are the slots of the window. -/
theorem vals_of_valid {α : Type} {a : Arr α} (h : a.OK) (hn : a.hasNull = false) :
    a.vals = ((a.buf.drop a.off).take a.len).map some := by
  rw [hasNull_false] at hn
  unfold Arr.OK at h
  apply List.ext_getElem?
  intro i
  simp only [Arr.vals, List.getElem?_map, List.getElem?_take, List.getElem?_drop]
  by_cases hi : i < a.len
  · rw [List.getElem?_range hi]
    simp only [Option.map_some, hn i hi, if_true, hi]
    rw [List.getElem?_eq_getElem (by omega)]
    rfl
  · simp [hi]

theorem vals_slice {α : Type} (a : Arr α) (o n : Nat) : (a.slice o n).vals = (a.vals.drop o).take n := by
  apply List.ext_getElem?
  intro i
  simp only [Arr.vals, Arr.slice, List.getElem?_map, List.getElem?_take, List.getElem?_drop]
  by_cases hi : i < n ∧ o + i < a.len
  · have : i < min n (a.len - min o a.len) := by omega
    rw [List.getElem?_range this, List.getElem?_range hi.2, if_pos hi.1]
    have : a.off + min o a.len + i = a.off + (o + i) := by omega
    simp [this]
  · have h1 : ¬ i < min n (a.len - min o a.len) := by omega
    rw [List.getElem?_eq_none (by simpa using h1)]
    by_cases h2 : i < n
    · have h3 : ¬ o + i < a.len := fun h => hi ⟨h2, h⟩
      rw [if_pos h2, List.getElem?_eq_none (by simpa using h3)]
      rfl
    · rw [if_neg h2]
      rfl

theorem slice_ok {α : Type} {a : Arr α} (h : a.OK) (o n : Nat) : (a.slice o n).OK := by
  unfold Arr.OK Arr.slice at *
  simp only
  omega

theorem toNumpy_spec {α : Type} {a : Arr α} (h : a.OK) {l : List α} (hl : toNumpy a = some l) : a.vals = l.map some := by
  unfold toNumpy at hl
  split at hl
  · cases hl
  · rename_i hn
    cases hl
    exact vals_of_valid h (by simpa using hn)

theorem ofList_vals {α : Type} (l : List α) : (ofList l).vals = l.map some := by
  have h : (ofList l).OK := by simp [ofList, Arr.OK]
  rw [vals_of_valid h (by simp [ofList, Arr.hasNull])]
  simp [ofList]

theorem ofList_ok {α : Type} (l : List α) : (ofList l).OK := by simp [ofList, Arr.OK]

theorem castPlain_vals {α β : Type} {g : α → β} {a : Arr α} {b : Arr β} (h : castPlain g a = some b) :
    b.vals = a.vals.map (Option.map g) := by
  unfold castPlain at h
  cases h
  simp only [Arr.vals, List.map_map]
  apply List.map_congr_left
  intro i _
  simp only [Function.comp, List.getElem?_map]
  split <;> simp

theorem reshape_spec {α : Type} {l : List α} {size : Nat} {r : List (List α)} (h : reshape l size = some r) :
    0 < size ∧ l.length = l.length / size * size ∧
      r = (List.range (l.length / size)).map (fun i => (l.drop (i * size)).take size) := by
  unfold reshape at h
  split at h
  · cases h
  · rename_i hc
    cases h
    have h1 : l.length % size = 0 := by
      rcases Nat.eq_zero_or_pos (l.length % size) with h | h
      · exact h
      · exact absurd (.inr (by omega)) hc
    refine ⟨Nat.pos_of_ne_zero (fun h => hc (.inl h)), ?_, rfl⟩
    have := Nat.div_add_mod l.length size
    rw [Nat.mul_comm] at this
    omega

end Verif.Conv
