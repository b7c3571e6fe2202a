import Verif.Legacy.LemmasReadCol
import Verif.Legacy.FileModel
/-! Lemmas about the batches of legacy files. -/
namespace Verif.Legacy
open Verif.ListCol

variable {α : Type}

/-! ### Writing -/

theorem writeAll_grows (t : CTy) : ∀ (B : List (List Arr)) (f : LFile), (∀ b ∈ B, b ≠ []) →
    (∃ more, (LFile.writeAll t B f).file.bytes = f.file.bytes ++ more) ∧
    ∀ id batch, batch < f.next → (LFile.writeAll t B f).file.page id batch = f.file.page id batch
  | [], f, _ => ⟨⟨[], by simp [LFile.writeAll]⟩, fun _ _ _ => rfl⟩
  | b :: B, f, h => by
    have hb : b.isEmpty = false := by simpa using h b (by simp)
    obtain ⟨⟨m, hm⟩, hp⟩ := writeAll_grows t B (f.write t b) (fun x hx => h x (by simp [hx]))
    have e : f.write t b = ⟨Verif.Legacy.write f.next t b f.file, pushLength f.offsets (total b), f.next + 1⟩ := by simp [LFile.write, hb]
    obtain ⟨m2, hm2⟩ := write_grows f.next t b f.file
    rw [e] at hm hp
    simp only at hm hp
    refine ⟨⟨m2 ++ m, ?_⟩, ?_⟩
    · rw [LFile.writeAll, e, hm, hm2, List.append_assoc]
    · intro id batch hlt
      rw [LFile.writeAll, e, hp id batch (by omega), write_page_other _ _ _ _ id batch (Or.inr (by omega))]

theorem writeAll_ext (t : CTy) : ∀ (B : List (List Arr)) (f : LFile), (∀ b ∈ B, b ≠ []) → ∀ (i : Nat) (b : List Arr), B[i]? = some b →
    ∃ g, Ext (f.next + i) t (write (f.next + i) t b g) (LFile.writeAll t B f).file
  | [], f, _, i, b, hb => by simp at hb
  | c :: B, f, h, i, b, hb => by
    have hc : c.isEmpty = false := by simpa using h c (by simp)
    have e : f.write t c = ⟨Verif.Legacy.write f.next t c f.file, pushLength f.offsets (total c), f.next + 1⟩ := by simp [LFile.write, hc]
    cases i with
    | zero =>
      obtain rfl : c = b := by simpa using hb
      obtain ⟨hm, hp⟩ := writeAll_grows t B (f.write t c) (fun x hx => h x (by simp [hx]))
      refine ⟨f.file, ?_, ?_⟩
      · rw [e] at hm; rw [LFile.writeAll, e]; exact hm
      · intro id _
        have := hp id f.next (by rw [e]; simp)
        rw [e] at this
        rw [LFile.writeAll, e]
        exact this
    | succ i =>
      obtain ⟨g, hg⟩ := writeAll_ext t B (f.write t c) (fun x hx => h x (by simp [hx])) i b (by simpa using hb)
      have en : (f.write t c).next + i = f.next + (i + 1) := by rw [e]; simp only; omega
      rw [en] at hg
      exact ⟨g, hg⟩

theorem sums_snoc : ∀ (ls : List Nat) (c n : Nat), sums c (ls ++ [n]) = sums c ls ++ [n + (sums c ls).getLastD 0]
  | [], c, n => by simp [sums, Nat.add_comm]
  | l :: ls, c, n => by
    have e : sums c (l :: ls ++ [n]) = c :: sums (c + l) (ls ++ [n]) := rfl
    have e2 : sums c (l :: ls) = c :: sums (c + l) ls := rfl
    rw [e, sums_snoc ls (c + l) n, e2, List.cons_append]
    have hne : sums (c + l) ls ≠ [] := by
      intro h
      have := sums_length (c + l) ls
      rw [h] at this
      simp at this
    congr 3
    rw [List.getLastD_eq_getLast?, List.getLastD_eq_getLast?, List.getLast?_cons]
    simp [List.getLast?_eq_some_getLast hne]

theorem writeAll_offsets (t : CTy) : ∀ (B : List (List Arr)) (f : LFile) (ls : List Nat), (∀ b ∈ B, b ≠ []) →
    (f.offsets = [] ∧ ls = [] ∨ f.offsets = sums 0 ls) → B ≠ [] → (LFile.writeAll t B f).offsets = sums 0 (ls ++ B.map total)
  | [], f, ls, _, _, hne => absurd rfl hne
  | b :: B, f, ls, h, ho, _ => by
    have hb : b.isEmpty = false := by simpa using h b (by simp)
    have e : f.write t b = ⟨Verif.Legacy.write f.next t b f.file, pushLength f.offsets (total b), f.next + 1⟩ := by simp [LFile.write, hb]
    have ho' : (f.write t b).offsets = sums 0 (ls ++ [total b]) := by
      rw [e]
      simp only
      rcases ho with ⟨h1, rfl⟩ | h1
      · rw [h1]; simp [pushLength, sums]
      · rw [sums_snoc, h1, pushLength]
        have : (sums 0 ls).isEmpty = false := by
          cases hs : sums 0 ls with
          | nil => have := sums_length 0 ls; rw [hs] at this; simp at this
          | cons => rfl
        simp [this]
    rw [LFile.writeAll]
    cases B with
    | nil => rw [LFile.writeAll, ho']; simp
    | cons c B =>
      rw [writeAll_offsets t (c :: B) _ _ (fun x hx => h x (by simp [hx])) (Or.inr ho') (by simp)]
      simp

/-! ### Rows of all batches -/

theorem flatten_get [Inhabited α] : ∀ (L : List (List α)) (b i : Nat), before L b ≤ i → i < before L (b + 1) → L.flatten[i]! = (L.getD b [])[i - before L b]! ∧
    i - before L b < (L.getD b []).length ∧ b < L.length
  | [], b, i, _, h2 => by simp [before] at h2
  | v :: L, 0, i, h1, h2 => by
    have hi : i < v.length := by simpa [before] using h2
    have hb : before (v :: L) 0 = 0 := by simp [before]
    rw [hb]
    refine ⟨?_, by simpa using hi, by simp⟩
    rw [getElem!_pos _ i (by simp; omega), List.getD_cons_zero, Nat.sub_zero, getElem!_pos v i hi]
    simp [List.getElem_append_left hi]
  | v :: L, b + 1, i, h1, h2 => by
    have e : ∀ k, before (v :: L) (k + 1) = v.length + before L k := by intro k; simp [before]
    rw [e] at h1 h2
    obtain ⟨q1, q2, q3⟩ := flatten_get L b (i - v.length) (by omega) (by omega)
    have hf := before_le L (b + 1)
    rw [e, List.getD_cons_succ]
    have e3 : i - (v.length + before L b) = i - v.length - before L b := by omega
    rw [e3]
    refine ⟨?_, q2, by simpa using q3⟩
    rw [← q1, getElem!_pos _ i (by simp; simp at hf; omega), getElem!_pos _ (i - v.length) (by omega)]
    simp only [List.flatten_cons]
    rw [List.getElem_append_right (by omega)]

/-! ### Ranges -/

theorem slice_app (v r : List α) (a b : Nat) (hab : a ≤ b) (ha : a ≤ v.length) :
    slice (v ++ r) (a, b) = slice v (a, min b v.length) ++ slice r (a - v.length, b - v.length) := by
  unfold slice
  simp only
  rw [List.drop_append_of_le_length ha, List.take_append]
  simp only [List.length_drop]
  have e1 : a - v.length = 0 := by omega
  rw [e1]
  simp only [List.drop_zero, Nat.sub_zero]
  congr 1
  · by_cases h : b ≤ v.length
    · rw [Nat.min_eq_left h]
    · rw [Nat.min_eq_right (by omega), List.take_of_length_le (by simp; omega), List.take_of_length_le (by simp)]
  · congr 1
    omega

theorem rangeLoop_ok [Inhabited α] (s e : Nat) : ∀ (L : List (List α)) (c bid : Nat), s ≤ c + (L.headD []).length → s ≤ e → 
    (∀ x ∈ rangeLoop s e bid (sums c (lens L)), ∃ i, x.1 = bid + i ∧ i < L.length ∧ x.2.1 ≤ x.2.2 ∧ x.2.2 ≤ (L.getD i []).length) ∧
    (rangeLoop s e bid (sums c (lens L))).flatMap (fun x => slice (L.getD (x.1 - bid) []) x.2) = slice L.flatten (s - c, e - c)
  | [], c, bid, _, _ => by simp [sums, rangeLoop, slice]
  | v :: L, c, bid, hs, hse => by
    have hs : s ≤ c + v.length := by simpa using hs
    have e0 : sums c (lens (v :: L)) = c :: sums (c + v.length) (lens L) := by simp [sums]
    obtain ⟨r, hr⟩ : ∃ r, sums (c + v.length) (lens L) = (c + v.length) :: r := by cases L <;> exact ⟨_, rfl⟩
    obtain ⟨ih1, ih2⟩ := rangeLoop_ok s e L (c + v.length) (bid + 1) (by omega) hse
    rw [e0, hr, rangeLoop, ← hr]
    by_cases hc : c ≥ e
    · rw [if_pos hc]
      have : e - c = 0 := by omega
      simp [slice, this]
    · rw [if_neg hc]
      constructor
      · intro x hx
        rcases List.mem_cons.1 hx with rfl | hx
        · refine ⟨0, rfl, by simp, ?_, ?_⟩
          · simp only; omega
          · simp only [List.getD_cons_zero]; omega
        · obtain ⟨i, h1, h2, h3, h4⟩ := ih1 x hx
          exact ⟨i + 1, by omega, by simpa using h2, h3, by simpa using h4⟩
      · rw [List.flatMap_cons, List.flatten_cons, slice_app _ _ _ _ (by omega) (by omega)]
        congr 1
        · simp only [Nat.sub_self, List.getD_cons_zero]
          congr 2
          · omega
          · omega
        · have e1 : s - c - v.length = s - (c + v.length) := by omega
          have e2 : e - c - v.length = e - (c + v.length) := by omega
          rw [e1, e2, ← ih2, List.flatMap_def, List.flatMap_def]
          congr 1
          apply List.map_congr_left
          intro x hx
          obtain ⟨i, h1, _⟩ := ih1 x hx
          have e3 : x.1 - bid = (x.1 - (bid + 1)) + 1 := by omega
          rw [e3, List.getD_cons_succ]

theorem found_ok (L : List (List α)) (s e b : Nat) (hf : Found (sums 0 (lens L)) s b) (hse : s < e) (he : e ≤ L.flatten.length) :
    b < L.length ∧ before L b ≤ s ∧ s ≤ before L b + ((L.drop b).headD []).length := by
  have hl : (sums 0 (lens L)).length = L.length + 1 := by rw [sums_length]; simp
  have hget : ∀ j, j ≤ L.length → (sums 0 (lens L))[j]? = some (before L j) := by
    intro j hj
    rw [sums_get 0 (lens L) j (by simpa using hj), Nat.zero_add]
    rfl
  have hb : ∃ o, (sums 0 (lens L))[b]? = some o ∧ o ≤ s := by
    rcases hf with h | ⟨_, o, h, ho, _⟩
    · exact ⟨s, h, Nat.le_refl _⟩
    · exact ⟨o, h, by omega⟩
  obtain ⟨o, h1, h2⟩ := hb
  have hble : b ≤ L.length := by
    have := (List.getElem?_eq_some_iff.1 h1).1
    omega
  rw [hget b hble] at h1
  have ho := Option.some.inj h1
  have hnext : b < L.length → before L (b + 1) = before L b + ((L.drop b).headD []).length := by
    intro h
    have := before_add L b 1
    rw [← this]
    congr 1
    rw [slice_one (lens L) b (by simpa using h)]
    have : L.drop b = L[b] :: L.drop (b + 1) := by rw [List.drop_eq_getElem_cons h]
    rw [this]
    simp [List.getElem?_eq_getElem h]
  have hlt : b < L.length := by
    rcases hf with h | ⟨_, o', h, ho', hn⟩
    · rw [hget b hble] at h
      have hs := Option.some.inj h
      rcases Nat.lt_or_ge b L.length with h' | h'
      · exact h'
      · have : b = L.length := by omega
        subst this
        rw [before_all] at hs
        omega
    · rcases Nat.lt_or_ge b L.length with h' | h'
      · exact h'
      · have : b = L.length := by omega
        subst this
        rw [before_all] at ho
        omega
  refine ⟨hlt, by omega, ?_⟩
  rcases hf with h | ⟨_, o', h, ho', hn⟩
  · rw [hget b hble] at h
    have hs := Option.some.inj h
    omega
  · have := hn _ (hget (b + 1) (by omega))
    rw [hnext hlt] at this
    omega

theorem sums_lens_last (L : List (List α)) : (sums 0 (lens L)).getLast? = some L.flatten.length := by
  rw [List.getLast?_eq_getElem?, sums_length, Nat.add_sub_cancel, sums_get _ _ _ (Nat.le_refl _), List.take_length, sum_lens, Nat.zero_add]

theorem readRange_ok (f : LFile) (block minIo : Nat) (t : CTy) (L : List (List Val)) (ho : f.offsets = sums 0 (lens L))
    (hr : ∀ i, i < L.length → ∀ p : Params, p.OkStrict (L.getD i []).length → p ≠ .indices [] → readCol f.file block minIo i t p = some (p.pick (L.getD i [])))
    (s e b : Nat) (hse : s ≤ e) (he : e ≤ L.flatten.length) (hb : Found f.offsets s b) :
    readRange f block minIo t s e b = some (slice L.flatten (s, e)) := by
  unfold readRange
  by_cases h : s ≥ e
  · rw [if_pos h]
    have : e - s = 0 := by omega
    simp [slice, this]
  · rw [if_neg h]
    rw [ho] at hb
    obtain ⟨h1, h2, h3⟩ := found_ok L s e b hb (by omega) he
    have hlen : (lens L).length = L.length := by simp
    unfold rangeToBatches
    rw [ho]
    simp only [sums_lens_last, Option.bind_eq_bind, Option.bind_some]
    rw [if_neg (by omega), sums_drop _ _ _ (by omega), Nat.zero_add]
    have hd : (lens L).drop b = lens (L.drop b) := by simp [lens]
    rw [hd]
    change Option.bind (some (rangeLoop s e b (sums (before L b) _))) _ = _
    obtain ⟨q1, q2⟩ := rangeLoop_ok s e (L.drop b) (before L b) b h3 hse
    have hgd : ∀ i, (L.drop b).getD i [] = L.getD (b + i) [] := by
      intro i
      rw [List.getD_eq_getElem?_getD, List.getElem?_drop, ← List.getD_eq_getElem?_getD]
    rw [Option.bind_some, mapM_some_of _ (fun x => slice ((L.drop b).getD (x.1 - b) []) x.2) _ (by
      intro x hx
      obtain ⟨i, a1, a2, a3, a4⟩ := q1 x hx
      rw [hgd] at a4
      rw [hr x.1 (by rw [List.length_drop] at a2; omega) (.range x.2.1 x.2.2) (by rw [a1]; exact ⟨a3, a4⟩) (by simp), hgd]
      have e1 : b + (x.1 - b) = x.1 := by omega
      rw [e1]
      exact congrArg some (slice_eq_drop_take _ _ _ a3).symm)]
    rw [Option.bind_some, ← List.flatMap_def, q2]
    have hsplit : L.flatten = (L.take b).flatten ++ (L.drop b).flatten := by rw [← List.flatten_append, List.take_append_drop]
    have hbl : (L.take b).flatten.length = before L b := by
      unfold before
      rw [← List.map_take, List.length_flatten]
    conv => rhs; rw [hsplit]
    unfold slice
    simp only
    have hnil : (L.take b).flatten.drop s = [] := List.drop_eq_nil_of_le (by omega)
    rw [List.drop_append, hnil, List.nil_append, hbl]
    congr 2
    omega

/-! ### Indices -/

theorem advance_spec (i : Nat) : ∀ (rest : List Nat) (bid : Nat), bid ≤ advance i bid rest ∧ advance i bid rest ≤ bid + rest.length ∧
    (∀ j, bid + j < advance i bid rest → ∃ o, rest[j]? = some o ∧ o ≤ i) ∧
    (∀ o, rest[advance i bid rest - bid]? = some o → i < o)
  | [], bid => by simp [advance]
  | o :: rest, bid => by
    unfold advance
    by_cases h : i ≥ o
    · rw [if_pos h]
      obtain ⟨h1, h2, h3, h4⟩ := advance_spec i rest (bid + 1)
      refine ⟨by omega, by simp only [List.length_cons]; omega, ?_, ?_⟩
      · intro j hj
        cases j with
        | zero => exact ⟨o, rfl, h⟩
        | succ j =>
          obtain ⟨o', a, b⟩ := h3 j (by omega)
          exact ⟨o', by simpa using a, b⟩
      · intro o' ho
        apply h4 o'
        have e : advance i (bid + 1) rest - bid = (advance i (bid + 1) rest - (bid + 1)) + 1 := by omega
        rw [e] at ho
        simpa using ho
    · rw [if_neg h]
      refine ⟨Nat.le_refl _, by omega, ?_, ?_⟩
      · intro j hj; omega
      · intro o' ho
        simp at ho
        omega

theorem assign_snd (offsets : List Nat) : ∀ (is : List Nat) (bid : Nat), (assign offsets bid is).map (·.2) = is
  | [], _ => rfl
  | i :: is, bid => by rw [assign, List.map_cons, assign_snd offsets is]

theorem assign_ge (offsets : List Nat) : ∀ (is : List Nat) (bid : Nat), ∀ x ∈ assign offsets bid is, bid ≤ x.1
  | [], _, x, hx => by simp [assign] at hx
  | i :: is, bid, x, hx => by
    have h := (advance_spec i (offsets.drop (bid + 1)) bid).1
    rw [assign] at hx
    rcases List.mem_cons.1 hx with rfl | hx
    · exact h
    · exact Nat.le_trans h (assign_ge offsets is _ x hx)

theorem assign_sorted (offsets : List Nat) : ∀ (is : List Nat) (bid : Nat), ((assign offsets bid is).map (·.1)).Pairwise (· ≤ ·)
  | [], _ => by simp [assign]
  | i :: is, bid => by
    rw [assign, List.map_cons, List.pairwise_cons]
    refine ⟨?_, assign_sorted offsets is _⟩
    intro b hb
    obtain ⟨x, hx, rfl⟩ := List.mem_map.1 hb
    exact assign_ge offsets is _ x hx

theorem assign_ok (L : List (List α)) : ∀ (is : List Nat) (bid : Nat), Sorted is → bid ≤ L.length → (∀ i ∈ is, before L bid ≤ i) →
    ∀ x ∈ assign (sums 0 (lens L)) bid is, x.1 ≤ L.length ∧ before L x.1 ≤ x.2 ∧ (x.1 < L.length → x.2 < before L (x.1 + 1))
  | [], _, _, _, _, x, hx => by simp [assign] at hx
  | i :: is, bid, hs, hbid, hle, x, hx => by
    have hget : ∀ j, j ≤ L.length → (sums 0 (lens L))[j]? = some (before L j) := by
      intro j hj
      rw [sums_get 0 (lens L) j (by simpa using hj), Nat.zero_add]
      rfl
    obtain ⟨h1, h2, h3, h4⟩ := advance_spec i ((sums 0 (lens L)).drop (bid + 1)) bid
    have hlen : ((sums 0 (lens L)).drop (bid + 1)).length = L.length - bid := by rw [List.length_drop, sums_length]; simp
    have hb : before L (advance i bid ((sums 0 (lens L)).drop (bid + 1))) ≤ i := by
      rcases Nat.lt_or_ge bid (advance i bid ((sums 0 (lens L)).drop (bid + 1))) with h | h
      · obtain ⟨o, a, b⟩ := h3 (advance i bid ((sums 0 (lens L)).drop (bid + 1)) - bid - 1) (by omega)
        rw [List.getElem?_drop] at a
        have e : bid + 1 + (advance i bid ((sums 0 (lens L)).drop (bid + 1)) - bid - 1) = advance i bid ((sums 0 (lens L)).drop (bid + 1)) := by omega
        rw [e, hget _ (by omega)] at a
        have := Option.some.inj a
        omega
      · have e : advance i bid ((sums 0 (lens L)).drop (bid + 1)) = bid := by omega
        rw [e]
        exact hle i (by simp)
    rw [assign] at hx
    rcases List.mem_cons.1 hx with rfl | hx
    · refine ⟨by omega, hb, ?_⟩
      intro hlt
      simp only at hlt ⊢
      apply h4
      rw [List.getElem?_drop]
      have e : bid + 1 + (advance i bid ((sums 0 (lens L)).drop (bid + 1)) - bid) = advance i bid ((sums 0 (lens L)).drop (bid + 1)) + 1 := by omega
      rw [e, hget _ (by omega)]
    · exact assign_ok L is _ hs.2 (by omega) (fun j hj => Nat.le_trans hb (hs.1 j hj)) x hx

/-- The pairs of batch and index of some groups. -/
def ungroup (g : List (Nat × List Nat)) : List (Nat × Nat) := g.flatMap (fun x => x.2.map (fun i => (x.1, i)))

theorem pushKey_ok (b i : Nat) : ∀ (g : List (Nat × List Nat)), (∀ x ∈ g, x.1 ≤ b) → (g.map (·.1)).Pairwise (· < ·) →
    ungroup (pushKey b i g) = ungroup g ++ [(b, i)] ∧ ((pushKey b i g).map (·.1)).Pairwise (· < ·) ∧
    (∀ x ∈ pushKey b i g, x.1 ≤ b) ∧ ((∀ x ∈ g, x.2 ≠ []) → ∀ x ∈ pushKey b i g, x.2 ≠ []) ∧
    ∀ k, k ∈ (pushKey b i g).map (·.1) → k ∈ g.map (·.1) ∨ k = b
  | [], _, _ => by simp [pushKey, ungroup]
  | (k, is) :: g, hle, hp => by
    have hk : k ≤ b := hle (k, is) (by simp)
    rw [List.map_cons, List.pairwise_cons] at hp
    obtain ⟨h1, h2, h3, h4, h5⟩ := pushKey_ok b i g (fun x hx => hle x (by simp [hx])) hp.2
    unfold pushKey
    by_cases e : b = k
    · rw [if_pos e]
      subst e
      have hg : g = [] := by
        cases g with
        | nil => rfl
        | cons y g =>
          have h6 := hp.1 y.1 (by simp)
          have h7 := hle y (by simp)
          simp only at h6
          omega
      subst hg
      refine ⟨by simp [ungroup], by simp, by simp, by simp, by simp⟩
    · rw [if_neg e, if_neg (by omega)]
      refine ⟨?_, ?_, ?_, ?_, ?_⟩
      · have e1 : ungroup ((k, is) :: pushKey b i g) = is.map (fun i => (k, i)) ++ ungroup (pushKey b i g) := rfl
        have e2 : ungroup ((k, is) :: g) = is.map (fun i => (k, i)) ++ ungroup g := rfl
        rw [e1, e2, h1, List.append_assoc]
      · rw [List.map_cons, List.pairwise_cons]
        refine ⟨?_, h2⟩
        intro k' hk'
        rcases h5 k' hk' with h | h
        · exact hp.1 k' h
        · subst h; simp only; omega
      · intro x hx
        rcases List.mem_cons.1 hx with rfl | hx
        · exact hk
        · exact h3 x hx
      · intro hne x hx
        rcases List.mem_cons.1 hx with rfl | hx
        · exact hne _ (by simp)
        · exact h4 (fun y hy => hne y (by simp [hy])) x hx
      · intro k' hk'
        rw [List.map_cons, List.mem_cons] at hk'
        rcases hk' with h | h
        · left; simp [h]
        · rcases h5 k' h with h | h
          · left; simp [h]
          · right; exact h

theorem groups_from : ∀ (xs : List (Nat × Nat)) (g : List (Nat × List Nat)), (xs.map (·.1)).Pairwise (· ≤ ·) → (∀ x ∈ xs, ∀ y ∈ g, y.1 ≤ x.1) →
    (g.map (·.1)).Pairwise (· < ·) → (∀ x ∈ g, x.2 ≠ []) →
    ungroup (xs.foldl (fun g x => pushKey x.1 x.2 g) g) = ungroup g ++ xs ∧ ∀ x ∈ xs.foldl (fun g x => pushKey x.1 x.2 g) g, x.2 ≠ []
  | [], g, _, _, _, hn => ⟨by simp, hn⟩
  | x :: xs, g, hs, hle, hp, hn => by
    rw [List.map_cons, List.pairwise_cons] at hs
    obtain ⟨h1, h2, h3, h4, h5⟩ := pushKey_ok x.1 x.2 g (fun y hy => hle x (by simp) y hy) hp
    obtain ⟨q1, q2⟩ := groups_from xs (pushKey x.1 x.2 g) hs.2 (fun z hz y hy => Nat.le_trans (h3 y hy) (hs.1 z.1 (List.mem_map_of_mem hz))) h2 (h4 hn)
    refine ⟨?_, q2⟩
    rw [List.foldl_cons, q1, h1, List.append_assoc]
    rfl

theorem groups_ok (xs : List (Nat × Nat)) (hs : (xs.map (·.1)).Pairwise (· ≤ ·)) : ungroup (groups xs) = xs ∧ ∀ x ∈ groups xs, x.2 ≠ [] := by
  have := groups_from xs [] hs (by simp) (by simp) (by simp)
  simpa [groups, ungroup] using this

theorem mapM_none_of {α β : Type} (f : α → Option β) : ∀ (xs : List α) (x : α), x ∈ xs → f x = none → xs.mapM f = none
  | y :: ys, x, hx, hn => by
    rw [List.mapM_cons]
    rcases List.mem_cons.1 hx with rfl | hx
    · simp [hn]
    · rw [mapM_none_of f ys x hx hn]
      cases f y <;> simp

theorem strict_of_sublist : ∀ {xs ys : List Nat}, List.Sublist xs ys → Strict ys → Strict xs := by
  intro xs ys h
  induction h with
  | slnil => exact fun h => h
  | cons a _ ih => exact fun h => ih h.2
  | cons_cons a hsub ih => exact fun h => ⟨fun b hb => h.1 b (hsub.subset hb), ih h.2⟩

theorem strict_sub : ∀ (xs : List Nat) (o : Nat), (∀ x ∈ xs, o ≤ x) → Strict xs → Strict (xs.map (· - o))
  | [], _, _, _ => trivial
  | x :: xs, o, ho, hs => by
    refine ⟨?_, strict_sub xs o (fun y hy => ho y (by simp [hy])) hs.2⟩
    intro y hy
    obtain ⟨z, hz, rfl⟩ := List.mem_map.1 hy
    have h1 := hs.1 z hz
    have h2 := ho x (by simp)
    show x - o < z - o
    omega

theorem ungroup_snd : ∀ (g : List (Nat × List Nat)), (ungroup g).map (·.2) = g.flatMap (·.2)
  | [] => rfl
  | (k, is) :: g => by
    have e : ungroup ((k, is) :: g) = is.map (fun i => (k, i)) ++ ungroup g := rfl
    rw [e, List.map_append, ungroup_snd g, List.flatMap_cons, List.map_map]
    simp [Function.comp_def]

theorem sublist_flatMap {β : Type} (f : β → List Nat) : ∀ (g : List β) (x : β), x ∈ g → List.Sublist (f x) (g.flatMap f)
  | y :: g, x, hx => by
    rw [List.flatMap_cons]
    rcases List.mem_cons.1 hx with rfl | hx
    · exact List.sublist_append_left _ _
    · exact (sublist_flatMap f g x hx).trans (List.sublist_append_right _ _)

theorem mapM_comp {α β γ : Type} (f : α → Option β) (g : α → β) (h : β → Option γ) (xs : List α) (hf : ∀ x ∈ xs, f x = some (g x)) :
    (xs.mapM f).bind (fun ys => ys.mapM h) = xs.mapM (fun x => h (g x)) := by
  rw [mapM_some_of f g xs hf, Option.bind_some, List.mapM_map]
  rfl

theorem takeRows_eq (f : LFile) (block minIo : Nat) (t : CTy) (L : List (List Val)) (ho : f.offsets = sums 0 (lens L))
    (is : List Nat) (hs : Sorted (sortAsc is)) : takeRows f block minIo t is =
      ((groups (assign (sums 0 (lens L)) 0 (sortAsc is))).mapM (fun g =>
        if g.1 ≥ L.length then none
        else if (g.2.map (· - before L g.1)).getLastD 0 > L.flatten.length then none
        else readCol f.file block minIo g.1 t (.indices (g.2.map (· - before L g.1))))).map List.flatten := by
  have hget : ∀ j, j ≤ L.length → (sums 0 (lens L))[j]? = some (before L j) := by
    intro j hj
    rw [sums_get 0 (lens L) j (by simpa using hj), Nat.zero_add]
    rfl
  unfold takeRows
  have hn : f.numBatches = L.length := by rw [LFile.numBatches, ho, sums_length]; simp
  have hl : f.len = L.flatten.length := by rw [LFile.len, ho, List.getLastD_eq_getLast?, sums_lens_last]; rfl
  obtain ⟨q1, q2⟩ := groups_ok _ (assign_sorted (sums 0 (lens L)) (sortAsc is) 0)
  have hok := assign_ok L _ 0 hs (Nat.zero_le _) (by simp [before])
  rw [ho, hn, hl]
  simp only [Option.bind_eq_bind]
  rw [mapM_some_of _ (fun g => (g.1, g.2.map (· - before L g.1))) _ (by
    intro g hg
    have hne := q2 g hg
    cases hg2 : g.2 with
    | nil => exact absurd hg2 hne
    | cons i r =>
      have hm : (g.1, i) ∈ ungroup (groups (assign (sums 0 (lens L)) 0 (sortAsc is))) :=
        List.mem_flatMap.2 ⟨g, hg, List.mem_map.2 ⟨i, by rw [hg2]; simp, rfl⟩⟩
      rw [q1] at hm
      rw [hget _ (hok _ hm).1]
      rfl)]
  rw [Option.bind_some, List.mapM_map]
  rw [Option.map_eq_bind]
  rfl

theorem insertAsc_perm (i : Nat) : ∀ (js : List Nat), (insertAsc i js).Perm (i :: js)
  | [] => List.Perm.refl _
  | j :: js => by
    unfold insertAsc
    split
    · exact List.Perm.refl _
    · exact ((insertAsc_perm i js).cons j).trans (List.Perm.swap i j js)

theorem sortAsc_perm : ∀ (is : List Nat), (sortAsc is).Perm is
  | [] => List.Perm.refl _
  | i :: is => (insertAsc_perm i (sortAsc is)).trans ((sortAsc_perm is).cons i)

theorem insertAsc_sorted (i : Nat) : ∀ (js : List Nat), Sorted js → Sorted (insertAsc i js)
  | [], _ => ⟨by simp, trivial⟩
  | j :: js, h => by
    unfold insertAsc
    split
    · rename_i hij
      refine ⟨?_, h⟩
      intro b hb
      rcases List.mem_cons.1 hb with rfl | hb
      · exact hij
      · exact Nat.le_trans hij (h.1 b hb)
    · refine ⟨?_, insertAsc_sorted i js h.2⟩
      intro b hb
      have := (insertAsc_perm i js).mem_iff.1 hb
      rcases List.mem_cons.1 this with rfl | hb
      · omega
      · exact h.1 b hb

theorem sorted_sortAsc : ∀ (is : List Nat), Sorted (sortAsc is)
  | [] => trivial
  | i :: is => insertAsc_sorted i _ (sorted_sortAsc is)

theorem sortAsc_of_pairwise : ∀ (is : List Nat), is.Pairwise (· < ·) → sortAsc is = is
  | [], _ => rfl
  | i :: is, h => by
    rw [List.pairwise_cons] at h
    rw [sortAsc, sortAsc_of_pairwise is h.2]
    cases is with
    | nil => rfl
    | cons j js =>
      have := h.1 j (by simp)
      rw [insertAsc, if_pos (by omega)]

theorem strict_of_sorted_nodup : ∀ (xs : List Nat), Sorted xs → xs.Nodup → Strict xs
  | [], _, _ => trivial
  | x :: xs, h, hn => by
    rw [List.nodup_cons] at hn
    refine ⟨?_, strict_of_sorted_nodup xs h.2 hn.2⟩
    intro y hy
    have h1 := h.1 y hy
    have h2 : x ≠ y := by rintro rfl; exact hn.1 hy
    omega

theorem takeRows_ok (f : LFile) (block minIo : Nat) (t : CTy) (L : List (List Val)) (ho : f.offsets = sums 0 (lens L))
    (hr : ∀ i, i < L.length → ∀ p : Params, p.OkStrict (L.getD i []).length → p ≠ .indices [] → readCol f.file block minIo i t p = some (p.pick (L.getD i [])))
    (is : List Nat) (hnd : is.Nodup) (hin : ∀ i ∈ is, i < L.flatten.length) :
    takeRows f block minIo t is = some ((sortAsc is).map (fun i => L.flatten[i]!)) := by
  have hs := sorted_sortAsc is
  have hperm := sortAsc_perm is
  rw [takeRows_eq f block minIo t L ho is hs]
  generalize hS : sortAsc is = S at *
  have hst : Strict S := strict_of_sorted_nodup S hs (hperm.nodup_iff.2 hnd)
  have hin : ∀ i ∈ S, i < L.flatten.length := fun i hi => hin i (hperm.mem_iff.1 hi)
  obtain ⟨q1, q2⟩ := groups_ok _ (assign_sorted (sums 0 (lens L)) S 0)
  have hok := assign_ok L S 0 hs (Nat.zero_le _) (by simp [before])
  have hsnd := assign_snd (sums 0 (lens L)) S 0
  generalize hG : groups (assign (sums 0 (lens L)) 0 S) = G at *
  have hall : ∀ g ∈ G, ∀ i ∈ g.2, g.1 < L.length ∧ before L g.1 ≤ i ∧ i < before L (g.1 + 1) := by
    intro g hg i hi
    have hm : (g.1, i) ∈ ungroup G := List.mem_flatMap.2 ⟨g, hg, List.mem_map.2 ⟨i, hi, rfl⟩⟩
    rw [q1] at hm
    obtain ⟨a1, a2, a3⟩ := hok _ hm
    have hiS : i ∈ S := by rw [← hsnd]; exact List.mem_map.2 ⟨_, hm, rfl⟩
    have := hin i hiS
    simp only at a1 a2 a3
    have hlt : g.1 < L.length := by
      rcases Nat.lt_or_ge g.1 L.length with h | h
      · exact h
      · have e : g.1 = L.length := by omega
        rw [e, before_all] at a2
        omega
    exact ⟨hlt, a2, a3 hlt⟩
  have hflat : G.flatMap (·.2) = S := by rw [← ungroup_snd, q1, hsnd]
  rw [mapM_some_of _ (fun g => g.2.map (fun i => L.flatten[i]!)) G (by
    intro g hg
    have hne := q2 g hg
    have hgs : Strict g.2 := strict_of_sublist (by rw [← hflat]; exact sublist_flatMap (·.2) G g hg) hst
    have hlt : g.1 < L.length := by
      cases h : g.2 with
      | nil => exact absurd h hne
      | cons i r => exact (hall g hg i (by rw [h]; simp)).1
    have hb := fun i hi => flatten_get L g.1 i (hall g hg i hi).2.1 (hall g hg i hi).2.2
    rw [if_neg (by omega), if_neg (by
      rw [List.getLastD_eq_getLast?]
      have hne' : g.2.map (· - before L g.1) ≠ [] := by simpa using hne
      rw [List.getLast?_eq_some_getLast hne', Option.getD_some]
      have := List.getLast_mem hne'
      obtain ⟨i, hi, he⟩ := List.mem_map.1 this
      rw [← he]
      have hi2 := hin i (by rw [← hflat]; exact List.mem_flatMap.2 ⟨g, hg, hi⟩)
      omega), hr g.1 hlt (.indices _) ⟨strict_sub _ _ (fun i hi => (hall g hg i hi).2.1) hgs, by
        intro j hj
        obtain ⟨i, hi, rfl⟩ := List.mem_map.1 hj
        exact (hb i hi).2.1⟩ (by simpa using hne)]
    simp only [Params.pick, List.map_map, Option.some.injEq]
    apply List.map_congr_left
    intro i hi
    exact (hb i hi).1.symm)]
  rw [Option.map_some, ← hflat, List.map_flatMap, List.flatMap_def]

/-- Indices that are not there. -/
theorem takeRows_beyond (f : LFile) (block minIo : Nat) (t : CTy) (L : List (List Val)) (ho : f.offsets = sums 0 (lens L))
    (is : List Nat) (i : Nat) (hi : i ∈ is) (hb : L.flatten.length ≤ i) : takeRows f block minIo t is = none := by
  have hs := sorted_sortAsc is
  have hperm := sortAsc_perm is
  rw [takeRows_eq f block minIo t L ho is hs]
  generalize hS : sortAsc is = S at *
  obtain ⟨q1, q2⟩ := groups_ok _ (assign_sorted (sums 0 (lens L)) S 0)
  have hok := assign_ok L S 0 hs (Nat.zero_le _) (by simp [before])
  have hsnd := assign_snd (sums 0 (lens L)) S 0
  generalize hG : groups (assign (sums 0 (lens L)) 0 S) = G at *
  have hm : i ∈ (assign (sums 0 (lens L)) 0 S).map (·.2) := by rw [hsnd]; exact hperm.mem_iff.2 hi
  obtain ⟨x, hx, rfl⟩ := List.mem_map.1 hm
  obtain ⟨a1, a2, a3⟩ := hok x hx
  have hx1 : x.1 ≥ L.length := by
    rcases Nat.lt_or_ge x.1 L.length with h | h
    · have h1 := a3 h
      have := before_le L (x.1 + 1)
      omega
    · exact h
  rw [← q1] at hx
  obtain ⟨g, hg, hx⟩ := List.mem_flatMap.1 hx
  obtain ⟨j, hj, rfl⟩ := List.mem_map.1 hx
  rw [mapM_none_of _ G g hg (by rw [if_pos hx1])]
  rfl

end Verif.Legacy
