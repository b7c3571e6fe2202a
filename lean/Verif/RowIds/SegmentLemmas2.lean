import Verif.RowIds.SegmentLemmas

/-! # Helper lemmas for segments: length, access, lookup, masking -/
namespace Verif.RowIds
open Verif.Deletion (countBelow countBelow_congr countBelow_not countBelow_mono countP_lt)

theorem filterMap_congr' {α β : Type} {l : List α} {f g : α → Option β} (h : ∀ x ∈ l, f x = g x) :
    l.filterMap f = l.filterMap g := by
  induction l with
  | nil => rfl
  | cons x xs ih =>
    rw [List.filterMap_cons, List.filterMap_cons, h x List.mem_cons_self,
      ih (fun y hy => h y (List.mem_cons_of_mem _ hy))]

theorem range_filter_length (p : Nat → Bool) (s n : Nat) :
    ((List.range' s n).filter p).length = countBelow (fun i => p (s + i)) n := by
  induction n with
  | zero => rfl
  | succ n ih =>
    rw [List.range'_1_concat, List.filter_append, List.length_append, ih]
    simp only [countBelow]
    by_cases hp : p (s + n) = true <;> simp [hp]

theorem range_filter_idx (p : Nat → Bool) (s n v : Nat) (h1 : s ≤ v) (h2 : v < s + n) (hp : p v = true) :
    ((List.range' s n).filter p).idxOf v = countBelow (fun i => p (s + i)) (v - s) := by
  have e : List.range' s n = List.range' s (v - s) ++ v :: List.range' (v + 1) (n - (v - s) - 1) := by
    have h3 : n = (v - s) + ((n - (v - s) - 1) + 1) := by omega
    conv => lhs; rw [h3, ← List.range'_append_1]
    rw [show s + (v - s) = v by omega, List.range'_succ]
  rw [e, List.filter_append, List.filter_cons, if_pos hp, List.idxOf_append]
  rw [if_neg (by
    rw [List.mem_filter, List.mem_range'_1]; omega)]
  rw [List.idxOf_cons_self, range_filter_length]; omega

theorem count_holes (s k : Nat) (h : List Nat) (hn : h.Nodup) (hb : ∀ x ∈ h, s ≤ x) :
    countBelow (fun i => h.contains (s + i)) k = h.countP (fun x => decide (x < s + k)) := by
  rw [countP_lt h hn, Bitmap.countBelow_split]
  have : countBelow (fun i => h.contains i) s = 0 := by
    have : countBelow (fun i => h.contains i) s = countBelow (fun _ => false) s := by
      apply countBelow_congr
      intro i hi
      rw [Bool.eq_false_iff]
      intro hc
      have := hb i (by simpa using hc)
      omega
    rw [this]
    have hz : ∀ n, countBelow (fun _ => false) n = 0 := by
      intro n
      induction n with
      | zero => rfl
      | succ n ih => simp [countBelow, ih]
    exact hz s
  omega

theorem takeWhile_length_inc (l : List Nat) (h : Inc l) (v : Nat) :
    (l.takeWhile (fun x => decide (x < v))).length = l.countP (fun x => decide (x < v)) := by
  induction l with
  | nil => rfl
  | cons x xs ih =>
    obtain ⟨h1, h2⟩ := List.pairwise_cons.1 h
    by_cases hx : x < v
    · simp [List.takeWhile_cons, List.countP_cons, hx, ih h2]
    · rw [List.takeWhile_cons]
      have : (x :: xs).countP (fun y => decide (y < v)) = 0 := by
        rw [List.countP_eq_zero]
        intro y hy
        rcases List.mem_cons.1 hy with rfl | hy
        · simpa using hx
        · have := h1 y hy; simp; omega
      rw [this]; simp [hx]

theorem idxOf?_of_mem {l : List Nat} {v : Nat} (h : v ∈ l) : l.idxOf? v = some (l.idxOf v) := by
  induction l with
  | nil => simp at h
  | cons x xs ih =>
    rw [List.idxOf?_cons, List.idxOf_cons]
    by_cases hx : x = v
    · simp [hx]
    · have hb : (x == v) = false := by simpa using hx
      have hm : v ∈ xs := by
        rcases List.mem_cons.1 h with e | e
        · exact absurd e.symm hx
        · exact e
      simp [hb, ih hm]

namespace Seg

theorem len_eq (sg : Seg) (h : sg.WF) : sg.len = sg.iter.length := by
  cases sg with
  | range s e => simp [len, iter]
  | holes s e hh =>
    obtain ⟨h1, h2, h3, h4, h5⟩ := h
    rw [iter_holes s e hh h3, range_filter_length]
    have hc := count_holes s (e - s) hh.iter h4.nodup (fun x hx => (h5 x hx).1)
    have hall : hh.iter.countP (fun x => decide (x < s + (e - s))) = hh.iter.length := by
      rw [List.countP_eq_length]
      intro x hx
      have := h5 x hx
      simp; omega
    have hnot := countBelow_not (fun i => hh.iter.contains (s + i)) (e - s)
    simp only [len]
    omega
  | bitmap s e b =>
    obtain ⟨h1, h2, h3, h4⟩ := h
    rw [iter_bitmap s e b h3 h4, range_filter_length]
    have hr := (wf_reads b h3 (bit b.data) (fun i _ => rfl)).2.2.1
    have hnot := countBelow_not (bit b.data) (e - s)
    have hcg : countBelow (fun i => bit b.data (s + i - s)) (e - s) = countBelow (bit b.data) (e - s) :=
      countBelow_congr (fun i _ => by rw [show s + i - s = i by omega])
    rw [hcg]
    simp only [len, hr, h4, Option.getD_some]
    omega
  | sorted a => exact Enc.len_eq a
  | array a => exact Enc.len_eq a

theorem get_eq (sg : Seg) (h : sg.WF) (i : Nat) : sg.get i = sg.iter[i]? := by
  cases sg with
  | range s e =>
    simp only [get, iter]
    by_cases hi : i < e - s
    · rw [if_pos (by have := h.2; omega), List.getElem?_range' hi]; simp
    · rw [if_neg (by omega), List.getElem?_eq_none (by simp; omega)]
  | holes s e hh =>
    simp only [get]
    split
    · rename_i hi
      rw [List.getElem?_eq_none]
      have := List.length_filter_le (fun v => !(hh.search v).toBool) (List.range' s (e - s))
      simp only [iter]
      simp only [List.length_range'] at this
      omega
    · rfl
  | bitmap s e b =>
    simp only [get]
    split
    · rename_i hi
      rw [List.getElem?_eq_none]
      have := List.length_filter_le (fun v => (b.get (v - s)).getD false) (List.range' s (e - s))
      simp only [iter]
      simp only [List.length_range'] at this
      omega
    · rfl
  | sorted a => exact Enc.get_eq a i
  | array a => exact Enc.get_eq a i

theorem position_eq (sg : Seg) (h : sg.WF) (v : Nat) :
    sg.position v = some (if v ∈ sg.iter then some (sg.iter.idxOf v) else none) := by
  cases sg with
  | range s e =>
    simp only [position, iter, List.mem_range'_1]
    by_cases hv : s ≤ v ∧ v < e
    · rw [if_pos hv, if_pos (by omega)]
      have := range_filter_idx (fun _ => true) s (e - s) v hv.1 (by omega) rfl
      rw [List.filter_eq_self.2 (fun _ _ => rfl)] at this
      rw [this]
      congr 2
      have : ∀ n, countBelow (fun _ => true) n = n := by
        intro n
        induction n with
        | zero => rfl
        | succ n ih => simp [countBelow, ih]
      rw [this]
    · rw [if_neg hv, if_neg (by omega)]
  | holes s e hh =>
    obtain ⟨h1, h2, h3, h4, h5⟩ := h
    have hmem : v ∈ (holes s e hh).iter ↔ (s ≤ v ∧ v < e ∧ hh.iter.contains v = false) := by
      rw [iter_holes s e hh h3, List.mem_filter, List.mem_range'_1]
      simp only [Bool.not_eq_true']
      constructor
      · rintro ⟨h6, h7⟩; exact ⟨h6.1, by omega, h7⟩
      · rintro ⟨h6, h7, h8⟩; exact ⟨⟨h6, by omega⟩, h8⟩
    simp only [position, search_toBool hh h3, Bool.not_eq_true', hmem]
    by_cases hv : s ≤ v ∧ v < e ∧ hh.iter.contains v = false
    · rw [if_pos hv, if_pos hv, iter_holes s e hh h3]
      rw [range_filter_idx _ s (e - s) v hv.1 (by omega) (by simpa using hv.2.2)]
      have hc := count_holes s (v - s) hh.iter h4.nodup (fun x hx => (h5 x hx).1)
      have hnot := countBelow_not (fun i => hh.iter.contains (s + i)) (v - s)
      rw [takeWhile_length_inc _ h4]
      rw [show s + (v - s) = v by omega] at hc
      rw [if_pos (by omega)]
      congr 2
      omega
    · rw [if_neg hv, if_neg hv]
  | bitmap s e b =>
    obtain ⟨h1, h2, h3, h4⟩ := h
    have hmem : v ∈ (bitmap s e b).iter ↔ ((s ≤ v ∧ v < e) ∧ bit b.data (v - s) = true) := by
      rw [iter_bitmap s e b h3 h4, List.mem_filter, List.mem_range'_1]
      constructor
      · rintro ⟨h6, h7⟩; exact ⟨⟨h6.1, by omega⟩, h7⟩
      · rintro ⟨h6, h7⟩; exact ⟨⟨h6.1, by omega⟩, h7⟩
    have hr := wf_reads b h3 (bit b.data) (fun i _ => rfl)
    simp only [position, hmem]
    by_cases hv : s ≤ v ∧ v < e
    · rw [if_pos hv, hr.1 (v - s) (by omega)]
      cases hbit : bit b.data (v - s) with
      | false => simp
      | true =>
        simp only
        rw [(hr.2.2.2 0 (v - s) (by omega)).2, if_pos (show (s ≤ v ∧ v < e) ∧ True from ⟨hv, trivial⟩)]
        simp only
        rw [iter_bitmap s e b h3 h4]
        rw [range_filter_idx _ s (e - s) v hv.1 (by omega) hbit]
        have hnot := countBelow_not (bit b.data) (v - s)
        have hcg : countBelow (fun i => bit b.data (s + i - s)) (v - s) = countBelow (bit b.data) (v - s) :=
          countBelow_congr (fun i _ => by rw [show s + i - s = i by omega])
        have hcg2 : countBelow (fun i => !bit b.data (0 + i)) (v - s) = countBelow (fun i => !bit b.data i) (v - s) :=
          countBelow_congr (fun i _ => by rw [Nat.zero_add])
        rw [hcg, hcg2, if_pos (by omega)]
        congr 2
        omega
    · rw [if_neg hv, if_neg (by simp [hv])]
  | sorted a =>
    simp only [position, iter]
    rw [Enc.search_eq a h.1]
    unfold Enc.binSearch
    by_cases hv : v ∈ a.iter <;> simp [hv]
  | array a =>
    show some (a.iter.idxOf? v) = _
    congr 1
    by_cases hv : v ∈ (array a).iter
    · rw [if_pos hv]
      exact idxOf?_of_mem hv
    · rw [if_neg hv, List.idxOf?_eq_none_iff]
      exact hv

/-! ## mask -/

theorem skipPositions_nil (xs : List Nat) (i : Nat) : skipPositions xs i [] = xs := by
  induction xs generalizing i with
  | nil => rfl
  | cons x xs ih => simp [skipPositions, ih]

/-- The values at the positions `i, i+1, …` not listed in `ps`. -/
theorem skipPositions_spec (xs : List Nat) (i : Nat) (ps : List Nat) (hinc : Inc ps)
    (hb : ∀ p ∈ ps, i ≤ p ∧ p < i + xs.length) (hi : i + xs.length ≤ 4294967296) :
    skipPositions xs i ps =
      ((List.range' i xs.length).filter (fun j => !ps.contains j)).filterMap (fun j => xs[j - i]?) := by
  induction xs generalizing i ps with
  | nil => rfl
  | cons x xs ih =>
    simp only [List.length_cons] at hb hi
    have hshift : ∀ q : List Nat, ((List.range' (i + 1) xs.length).filter (fun j => !q.contains j)).filterMap
        (fun j => (x :: xs)[j - i]?) = ((List.range' (i + 1) xs.length).filter (fun j => !q.contains j)).filterMap
        (fun j => xs[j - (i + 1)]?) := by
      intro q
      apply filterMap_congr'
      intro j hj
      rw [List.mem_filter, List.mem_range'_1] at hj
      rw [show j - i = (j - (i + 1)) + 1 by omega, List.getElem?_cons_succ]
    rw [List.length_cons, List.range'_succ, List.filter_cons]
    cases ps with
    | nil =>
      have := ih (i + 1) [] List.Pairwise.nil (by simp) (by omega)
      simp only [skipPositions, List.contains_nil, Bool.not_false, if_true, List.filterMap_cons]
      rw [this]
      have h2 := hshift []
      simp only [List.contains_nil, Bool.not_false] at h2
      simp only [Nat.sub_self, List.getElem?_cons_zero]
      rw [h2]
      simp only [List.contains_nil, Bool.not_false]
    | cons p ps =>
      obtain ⟨hp1, hp2⟩ := List.pairwise_cons.1 hinc
      have hbp := hb p List.mem_cons_self
      simp only [skipPositions, Nat.mod_eq_of_lt (show i < 4294967296 by omega)]
      by_cases hpi : p = i
      · subst hpi
        rw [if_pos rfl]
        have : (!(p :: ps).contains p) = false := by simp
        rw [if_neg (by simp)]
        rw [ih (p + 1) ps hp2 (by
          intro q hq
          have h1 := hp1 q hq
          have h2 := hb q (List.mem_cons_of_mem _ hq)
          omega) (by omega), hshift]
        congr 1
        apply List.filter_congr
        intro j hj
        rw [List.mem_range'_1] at hj
        rw [List.contains_cons]
        have : (j == p) = false := by rw [beq_eq_false_iff_ne]; omega
        rw [this, Bool.false_or]
      · rw [if_neg hpi]
        have hni : (p :: ps).contains i = false := by
          rw [Bool.eq_false_iff]
          intro hc
          have hm : i ∈ p :: ps := by simpa using hc
          rcases List.mem_cons.1 hm with e | hm
          · exact hpi e.symm
          · have := hp1 i hm; omega
        rw [if_pos (by rw [hni]; rfl)]
        rw [ih (i + 1) (p :: ps) hinc (by
          intro q hq
          have h2 := hb q hq
          have : q ≠ i := by
            intro e; subst e
            rw [List.contains_iff_mem.2 hq] at hni; cases hni
          omega) (by omega)]
        rw [List.filterMap_cons]
        simp only [Nat.sub_self, List.getElem?_cons_zero]
        rw [hshift]

/-- Strictly increasing lists satisfy `ps[k] ≥ ps[0] + k`. -/
theorem inc_get_ge (ps : List Nat) (h : Inc ps) (k : Nat) (hk : k < ps.length) : k ≤ ps[k] := by
  induction k with
  | zero => omega
  | succ k ih =>
    have h1 := ih (by omega)
    have h2 := List.pairwise_iff_getElem.1 h k (k + 1) (by omega) hk (by omega)
    omega

/-- Shape of `firstDiff` over an increasing enumeration. -/
theorem firstDiff_up (ps : List Nat) (hinc : Inc ps) (n k : Nat) (hn : n ≤ 4294967296)
    (hne : 0 < ps.length) (hlt : ps.length < n) (hk : k ≤ ps.length)
    (hpre : ∀ j, j < k → j ∈ ps) (hpre' : ∀ j (_ : j < k) (h' : j < ps.length), ps[j] = j) :
    ∃ f, firstDiff ps (List.range' k (n - k)) k = some f ∧ f < n ∧ f ∉ ps ∧ ∀ j, j < f → j ∈ ps := by
  generalize hm : n - k = m
  induction m generalizing k with
  | zero => omega
  | succ m ih =>
    simp only [List.range'_succ, firstDiff]
    by_cases hkl : k < ps.length
    · have hmod : k % ps.length = k := Nat.mod_eq_of_lt hkl
      rw [hmod, List.getElem?_eq_getElem hkl, Nat.mod_eq_of_lt (show k < 4294967296 by omega)]
      simp only
      by_cases hd : ps[k] = k
      · rw [if_neg (by simpa using hd)]
        apply ih (k + 1) (by omega)
        · intro j hj
          by_cases e : j = k
          · subst e; rw [← hd]; exact List.getElem_mem _
          · exact hpre j (by omega)
        · intro j hj h'
          by_cases e : j = k
          · subst e; exact hd
          · exact hpre' j (by omega) h'
        · omega
      · rw [if_pos hd]
        refine ⟨k, rfl, by omega, ?_, hpre⟩
        intro hmem
        obtain ⟨i, hi, e⟩ := List.getElem_of_mem hmem
        have hge := inc_get_ge ps hinc k hkl
        rcases Nat.lt_trichotomy i k with h | h | h
        · have := hpre' i h hi; omega
        · subst h; exact hd e
        · have := List.pairwise_iff_getElem.1 hinc k i hkl hi h; omega
    · have hkeq : k = ps.length := by omega
      have hmod : k % ps.length = 0 := by rw [hkeq, Nat.mod_self]
      rw [hmod, List.getElem?_eq_getElem hne, Nat.mod_eq_of_lt (show k < 4294967296 by omega)]
      simp only
      have h0 := hpre' 0 (by omega) hne
      rw [if_pos (by omega)]
      refine ⟨k, rfl, by omega, ?_, hpre⟩
      intro hmem
      obtain ⟨i, hi, e⟩ := List.getElem_of_mem hmem
      have := hpre' i (by omega) hi
      omega

/-- Reflecting positions `i ↦ n-1-i` turns the backward search into the forward one. -/
theorem firstDiff_mirror (ps : List Nat) (n : Nat) (hn : n ≤ 4294967296) (hb : ∀ p ∈ ps, p < n)
    (is : List Nat) (his : ∀ i ∈ is, i < n) (k : Nat) :
    firstDiff ps (is.map (fun i => n - 1 - i)) k =
      (firstDiff (ps.map (fun p => n - 1 - p)) is k).map (fun i => n - 1 - i) := by
  induction is generalizing k with
  | nil => rfl
  | cons i is ih =>
    simp only [List.map_cons, firstDiff, List.length_map, List.getElem?_map]
    have hi := his i List.mem_cons_self
    cases hp : ps[k % ps.length]? with
    | none => rfl
    | some p =>
      have hpn := hb p (List.mem_of_getElem? hp)
      simp only [Option.map_some]
      rw [Nat.mod_eq_of_lt (show n - 1 - i < 4294967296 by omega), Nat.mod_eq_of_lt (show i < 4294967296 by omega)]
      by_cases hd : p = n - 1 - i
      · rw [if_neg (by simpa using hd), if_neg (by simp; omega)]
        exact ih (fun j hj => his j (List.mem_cons_of_mem _ hj)) (k + 1)
      · rw [if_pos hd, if_pos (by omega)]
        rfl

theorem reverse_range_mirror (n : Nat) : (List.range n).reverse = (List.range n).map (fun i => n - 1 - i) := by
  apply List.ext_getElem
  · simp
  · intro i h1 h2
    simp [List.getElem_reverse]

theorem firstDiff_down (ps : List Nat) (hinc : Inc ps) (n : Nat) (hn : n ≤ 4294967296)
    (hne : 0 < ps.length) (hlt : ps.length < n) (hb : ∀ p ∈ ps, p < n) :
    ∃ l, firstDiff ps.reverse (List.range n).reverse 0 = some l ∧ l < n ∧ l ∉ ps ∧
      ∀ j, l < j → j < n → j ∈ ps := by
  rw [reverse_range_mirror, firstDiff_mirror ps.reverse n hn (by simpa using hb) _ (by simp)]
  have hinc' : Inc (ps.reverse.map (fun p => n - 1 - p)) := by
    unfold Inc
    rw [List.pairwise_map, List.pairwise_reverse]
    apply hinc.imp_of_mem
    intro a b ha hb' hab
    have h1 := hb a ha
    have h2 := hb b hb'
    omega
  obtain ⟨f, h1, h2, h3, h4⟩ := firstDiff_up (ps.reverse.map (fun p => n - 1 - p)) hinc' n 0 hn
    (by simpa using hne) (by simpa using hlt) (by omega) (by intro j hj; omega) (by intro j hj; omega)
  rw [List.range_eq_range']
  simp only [Nat.sub_zero] at h1
  rw [h1]
  refine ⟨n - 1 - f, rfl, by omega, ?_, ?_⟩
  · intro hm
    apply h3
    simp only [List.mem_map, List.mem_reverse]
    exact ⟨n - 1 - f, hm, by omega⟩
  · intro j hj hjn
    have := h4 (n - 1 - j) (by omega)
    simp only [List.mem_map, List.mem_reverse] at this
    obtain ⟨p, hp, e⟩ := this
    have := hb p hp
    have : p = j := by omega
    subst this; exact hp

/-- The values of `l` at the positions not listed in `ps`, in order. -/
def dropAt (ps l : List Nat) : List Nat :=
  ((List.range l.length).filter (fun i => !ps.contains i)).filterMap (fun i => l[i]?)

theorem dropAt_eq_map (ps l : List Nat) :
    dropAt ps l = ((List.range l.length).filter (fun i => !ps.contains i)).map (fun i => l.getD i 0) := by
  unfold dropAt
  rw [← List.filterMap_eq_map]
  apply filterMap_congr'
  intro i hi
  rw [List.mem_filter, List.mem_range] at hi
  simp [List.getElem?_eq_getElem hi.1]

theorem dropAt_length (ps l : List Nat) (hn : ps.Nodup) (hb : ∀ p ∈ ps, p < l.length) :
    (dropAt ps l).length = l.length - ps.length := by
  rw [dropAt_eq_map, List.length_map, List.range_eq_range', range_filter_length]
  have h1 := countBelow_not (fun i => ps.contains i) l.length
  have h2 := countP_lt ps hn l.length
  have h3 : ps.countP (fun x => decide (x < l.length)) = ps.length := by
    rw [List.countP_eq_length]; intro x hx; simpa using hb x hx
  have h4 : countBelow (fun i => !ps.contains (0 + i)) l.length = countBelow (fun i => !ps.contains i) l.length :=
    countBelow_congr (fun i _ => by rw [Nat.zero_add])
  omega

theorem dropAt_sublist (ps l : List Nat) : (dropAt ps l).Sublist l := by
  unfold dropAt
  have h1 : ((List.range l.length).filter (fun i => !ps.contains i)).Sublist (List.range l.length) :=
    List.filter_sublist
  have h2 := h1.filterMap (fun i => l[i]?)
  have h3 : (List.range l.length).filterMap (fun i => l[i]?) = l := by
    have : (List.range l.length).filterMap (fun i => l[i]?) = (List.range l.length).map (fun i => l.getD i 0) := by
      rw [← List.filterMap_eq_map]
      apply filterMap_congr'
      intro i hi
      rw [List.mem_range] at hi
      simp [List.getElem?_eq_getElem hi]
    rw [this]
    apply List.ext_getElem
    · simp
    · intro i h1 h2
      simp [List.getElem?_eq_getElem h2]
  rw [h3] at h2
  exact h2

theorem mask_eq (sg : Seg) (hwf : sg.WF) (hsm : Small sg.iter) (ps : List Nat) (hinc : Inc ps)
    (hb : ∀ p ∈ ps, p < sg.iter.length) (hlen : sg.iter.length ≤ 4294967296) :
    ∃ sg', sg.mask ps = some sg' ∧ sg'.WF ∧ sg'.iter = dropAt ps sg.iter := by
  have hl := len_eq sg hwf
  have hdl := dropAt_length ps sg.iter hinc.nodup hb
  unfold mask
  split
  · rename_i he
    have : ps = [] := by simpa using he
    subst this
    refine ⟨sg, rfl, hwf, ?_⟩
    apply List.Sublist.eq_of_length _ (by rw [hdl]; simp) |>.symm
    exact dropAt_sublist _ _
  · rename_i he
    have hne : 0 < ps.length := by
      cases ps with
      | nil => simp at he
      | cons _ _ => simp
    split
    · rename_i heq
      refine ⟨_, rfl, ⟨by omega, by omega⟩, ?_⟩
      have : (dropAt ps sg.iter).length = 0 := by omega
      rw [List.eq_nil_of_length_eq_zero this]; rfl
    · rename_i hneq
      have hle : ps.length ≤ sg.iter.length := by
        have := Verif.Deletion.nodup_length_le (t := List.range sg.iter.length) hinc.nodup
          (fun x hx => by simpa using hb x hx)
        simpa using this
      rw [if_neg (by omega)]
      rw [hl] at hneq ⊢
      obtain ⟨f, f1, f2, f3, f4⟩ := firstDiff_up ps hinc sg.iter.length 0 hlen hne (by omega) (by omega)
        (by intro j hj; omega) (by intro j hj; omega)
      obtain ⟨l, l1, l2, l3, l4⟩ := firstDiff_down ps hinc sg.iter.length hlen hne (by omega) hb
      rw [Nat.sub_zero, ← List.range_eq_range'] at f1
      rw [f1, l1]
      simp only
      rw [get_eq sg hwf, get_eq sg hwf, List.getElem?_eq_getElem f2, List.getElem?_eq_getElem l2]
      simp only
      have hsk : skipPositions sg.iter 0 ps = dropAt ps sg.iter := by
        rw [skipPositions_spec sg.iter 0 ps hinc (by intro p hp; have := hb p hp; omega) (by omega)]
        unfold dropAt
        rw [List.range_eq_range']
        rfl
      rw [hsk]
      have hsub := dropAt_sublist ps sg.iter
      have hnd : (dropAt ps sg.iter).Nodup := (iter_nodup sg hwf).sublist hsub
      have hsm' := hsm.subset (fun x hx => hsub.subset hx)
      cases hsorted : sg.isSorted with
      | false => exact fromStats_unsorted _ _ rfl hnd
      | true =>
        have hinc' : Inc (dropAt ps sg.iter) := (iter_inc sg hwf hsorted).sublist hsub
        have hne' : dropAt ps sg.iter ≠ [] := by
          intro e
          rw [e] at hdl
          simp at hdl
          omega
        have hC : Inc ((List.range sg.iter.length).filter (fun i => !ps.contains i)) := by
          rw [List.range_eq_range']; exact (inc_range' _ _).filter _
        have hmemC : ∀ i, i ∈ (List.range sg.iter.length).filter (fun i => !ps.contains i) ↔
            i < sg.iter.length ∧ i ∉ ps := by
          intro i; simp [List.mem_filter]
        have hCne : (List.range sg.iter.length).filter (fun i => !ps.contains i) ≠ [] := by
          intro e
          have := (hmemC f).2 ⟨f2, f3⟩
          rw [e] at this; simp at this
        have hhead : ((List.range sg.iter.length).filter (fun i => !ps.contains i)).head hCne = f := by
          have h1 := (inc_bounds hC hCne f ((hmemC f).2 ⟨f2, f3⟩)).1
          have h2 := (hmemC _).1 (List.head_mem hCne)
          rcases Nat.lt_or_ge (((List.range sg.iter.length).filter (fun i => !ps.contains i)).head hCne) f with h | h
          · exact absurd (f4 _ h) h2.2
          · omega
        have hlast : ((List.range sg.iter.length).filter (fun i => !ps.contains i)).getLast hCne = l := by
          have h1 := (inc_bounds hC hCne l ((hmemC l).2 ⟨l2, l3⟩)).2
          have h2 := (hmemC _).1 (List.getLast_mem hCne)
          rcases Nat.lt_or_ge l (((List.range sg.iter.length).filter (fun i => !ps.contains i)).getLast hCne) with h | h
          · exact absurd (l4 _ h h2.1) h2.2
          · omega
        have hh : sg.iter[f] = (dropAt ps sg.iter).head hne' := by
          simp only [dropAt_eq_map, List.head_map, hhead]
          simp [List.getElem?_eq_getElem f2]
        have hl' : sg.iter[l] = (dropAt ps sg.iter).getLast hne' := by
          simp only [dropAt_eq_map, List.getLast_map, hlast]
          simp [List.getElem?_eq_getElem l2]
        rw [hh, hl', ← hdl]
        exact fromStats_sorted _ hne' hinc' (hsm'.1 _ (List.getLast_mem hne'))
          (hsm'.2 _ (List.getLast_mem hne') _ (List.head_mem hne'))

end Seg
end Verif.RowIds
