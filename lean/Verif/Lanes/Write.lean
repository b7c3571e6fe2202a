import Verif.Lanes.Lemmas
import Verif.Mini.LemmasBitpack

/-! # What the writer of pages in chunks gives -/

namespace Verif.Lanes

open Verif.Mini (Word bitLen lt_bitLen bitLen_le foldl_or_le foldl_or_lt unpack_pack_words)

theorem getD_mod (W : Nat) (c : List Nat) (i : Nat) : (c.map (· % 2 ^ W)).getD i 0 = c.getD i 0 % 2 ^ W := by
  rw [List.getD_eq_getElem?_getD, List.getD_eq_getElem?_getD, List.getElem?_map]
  cases c[i]? <;> simp

/-- Packing does not look at bits beyond the width. -/
theorem packRows_mod (T W lane : Nat) (c : List Nat) : ∀ left row tmp, Mini.packRows T W lane (c.map (· % 2 ^ W)) left row tmp = Mini.packRows T W lane c left row tmp := by
  intro left
  induction left with
  | zero => intro row tmp; rfl
  | succ left ih =>
    intro row tmp
    unfold Mini.packRows
    simp only [getD_mod, Nat.mod_mod, ih]

theorem pack_mod (T W : Nat) (c : List Nat) (h : ∀ x ∈ c, x < 2 ^ T) : Mini.pack T W (c.map (· % 2 ^ W)) = Mini.pack T W c := by
  by_cases hW : W = T
  · have : c.map (· % 2 ^ W) = c := by
      conv => rhs; rw [← List.map_id c]
      apply List.map_congr_left
      intro x hx
      rw [hW]
      exact Nat.mod_eq_of_lt (h x hx)
    rw [this]
  · unfold Mini.pack
    have : Mini.packLane T W (c.map (· % 2 ^ W)) = Mini.packLane T W c := by
      funext lane
      unfold Mini.packLane
      rw [if_neg hW, if_neg hW, packRows_mod]
    rw [this]

/-- The numbers with the zeros after them. -/
def padded (values : List Nat) : List Nat := values ++ List.replicate ((1024 - values.length % 1024) % 1024) 0

theorem chunks_length (values : List Nat) : 1024 * (chunks values).length = (padded values).length := by
  unfold chunks padded
  simp only [List.length_append, List.length_replicate]
  split
  · simp only [List.length_map, List.length_range]
    omega
  · simp only [List.length_append, List.length_map, List.length_range, List.length_singleton]
    omega

theorem chunks_get (values : List Nat) (j : Nat) (c : List Nat) (h : (chunks values)[j]? = some c) : c = part (padded values) (1024 * j) (1024 * (j + 1)) := by
  have hl := chunks_length values
  have hj : j < (chunks values).length := (List.getElem?_eq_some_iff.mp h).1
  have hpl : (padded values).length = values.length + (1024 - values.length % 1024) % 1024 := by simp [padded]
  have hwhole : j < values.length / 1024 → (values.drop (j * 1024)).take 1024 = part (padded values) (1024 * j) (1024 * (j + 1)) := by
    intro hlt
    unfold part padded
    rw [List.drop_append_of_le_length (by omega), List.take_append_of_le_length (by rw [List.length_drop]; omega), Nat.mul_comm]
    congr 1
    omega
  unfold chunks at h
  simp only at h
  split at h
  · rw [List.getElem?_map] at h
    have hlt : j < values.length / 1024 := by omega
    rw [List.getElem?_range hlt] at h
    simp only [Option.map_some, Option.some.injEq] at h
    rw [← h]
    exact hwhole hlt
  · rename_i hne
    by_cases hlt : j < values.length / 1024
    · rw [List.getElem?_append_left (by simpa using hlt), List.getElem?_map, List.getElem?_range hlt] at h
      simp only [Option.map_some, Option.some.injEq] at h
      rw [← h]
      exact hwhole hlt
    · have hje : j = values.length / 1024 := by omega
      rw [List.getElem?_append_right (by simp only [List.length_map, List.length_range]; omega)] at h
      simp only [List.length_map, List.length_range, hje, Nat.sub_self, List.getElem?_cons_zero, Option.some.injEq] at h
      rw [← h, hje]
      unfold part padded
      rw [List.drop_append_of_le_length (by omega), show values.length - values.length % 1024 = 1024 * (values.length / 1024) by omega, List.take_of_length_le]
      · congr 2
        rw [List.length_drop]
        omega
      · rw [List.length_append, List.length_drop, List.length_replicate]
        omega

/-- Every chunk comes out as it was packed, but for bits beyond the width. -/
theorem packAll_spec (T W : Nat) (hT : Word T) (hW0 : 0 < W) (hW : W ≤ T) : ∀ (cs : List (List Nat)), (∀ c ∈ cs, c.length = 1024 ∧ ∀ x ∈ c, x < 2 ^ T) →
    ∃ ps, packAll T W cs = some ps ∧ ps.length = cs.length ∧
      ∀ (j : Nat) (p : List Nat), ps[j]? = some p → ∃ c, cs[j]? = some c ∧ Mini.unpack T W p = some (c.map (· % 2 ^ W)) := by
  intro cs
  induction cs with
  | nil => intro _; exact ⟨[], rfl, rfl, fun j p h => by simp at h⟩
  | cons c cs ih =>
    intro h
    obtain ⟨ps, h1, h2, h3⟩ := ih (fun c hc => h c (List.mem_cons_of_mem _ hc))
    obtain ⟨hc1, hc2⟩ := h c List.mem_cons_self
    obtain ⟨p, h4, _, h5⟩ := unpack_pack_words hT W hW0 hW (c.map (· % 2 ^ W)) (by rw [List.length_map]; exact hc1) (fun x hx => by
      obtain ⟨y, _, rfl⟩ := List.mem_map.mp hx
      exact Nat.mod_lt _ (Nat.two_pow_pos W))
    rw [pack_mod T W c hc2] at h4
    refine ⟨p :: ps, ?_, by simp [h2], ?_⟩
    · unfold packAll
      rw [h4, h1]
    · intro j q hq
      cases j with
      | zero =>
        simp only [List.getElem?_cons_zero, Option.some.injEq] at hq
        subst hq
        exact ⟨c, rfl, h5⟩
      | succ j =>
        rw [List.getElem?_cons_succ] at hq
        rw [List.getElem?_cons_succ]
        exact h3 j q hq

/-- The width is enough for every number that is not null, and it is one of the type. -/
theorem bitWidth_spec (T : Nat) (hT : 0 < T) (arrays : List (List (Option Nat))) (h : ∀ a ∈ arrays, ∀ x, some x ∈ a → x < 2 ^ T) :
    0 < bitWidth arrays ∧ bitWidth arrays ≤ T ∧ ∀ a ∈ arrays, ∀ x, some x ∈ a → x < 2 ^ bitWidth arrays := by
  have hmax : ∀ (l : List Nat) (s : Nat), s ≤ l.foldl max s ∧ (∀ y ∈ l, y ≤ l.foldl max s) ∧ (∀ t, s ≤ t → (∀ y ∈ l, y ≤ t) → l.foldl max s ≤ t) := by
    intro l
    induction l with
    | nil => intro s; exact ⟨Nat.le_refl _, fun y h => (nomatch h), fun t ht _ => ht⟩
    | cons z l ih =>
      intro s
      obtain ⟨h1, h2, h3⟩ := ih (max s z)
      refine ⟨Nat.le_trans (Nat.le_max_left s z) h1, ?_, ?_⟩
      · intro y hy
        rcases List.mem_cons.mp hy with rfl | hy
        · exact Nat.le_trans (Nat.le_max_right s y) h1
        · exact h2 y hy
      · intro t hs hy
        exact h3 t (Nat.max_le.mpr ⟨hs, hy z List.mem_cons_self⟩) (fun y h => hy y (List.mem_cons_of_mem _ h))
  obtain ⟨_, h2, h3⟩ := hmax (arrays.map (fun a => bitLen ((a.filterMap id).foldl (· ||| ·) 0))) 0
  have hle : (arrays.map (fun a => bitLen ((a.filterMap id).foldl (· ||| ·) 0))).foldl max 0 ≤ T := by
    apply h3 T (Nat.zero_le _)
    intro y hy
    obtain ⟨a, ha, rfl⟩ := List.mem_map.mp hy
    apply bitLen_le
    apply foldl_or_lt T _ 0 (Nat.two_pow_pos T)
    intro x hx
    obtain ⟨o, ho, hox⟩ := List.mem_filterMap.mp hx
    simp only [id_eq] at hox
    subst hox
    exact h a ha x ho
  have hlt : ∀ a ∈ arrays, ∀ x, some x ∈ a → x < 2 ^ (arrays.map (fun a => bitLen ((a.filterMap id).foldl (· ||| ·) 0))).foldl max 0 := by
    intro a ha x hx
    have h4 := h2 _ (List.mem_map.mpr ⟨a, ha, rfl⟩)
    have h5 := (foldl_or_le (a.filterMap id) 0).2 x (List.mem_filterMap.mpr ⟨some x, hx, rfl⟩)
    exact Nat.lt_of_lt_of_le (Nat.lt_of_le_of_lt h5 (lt_bitLen _)) (Nat.pow_le_pow_right (by decide) h4)
  unfold bitWidth
  simp only
  split
  · rename_i h0
    refine ⟨by decide, hT, fun a ha x hx => ?_⟩
    have := hlt a ha x hx
    rw [h0] at this
    omega
  · rename_i h0
    exact ⟨Nat.pos_of_ne_zero h0, hle, hlt⟩

end Verif.Lanes
