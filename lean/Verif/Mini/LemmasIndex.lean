import Verif.Mini.LemmasCut
import Verif.Mini.LemmasRange
/-!
# Mini-block pages: the repetition index, and where ranges may start
-/
namespace Verif.Mini

variable {V : Type}

theorem filter_rep_length (m : Nat) (s : List (Slot V)) :
    ((s.map Slot.rep).filter (· == m)).length = (split m s).2.length := by
  induction s with
  | nil => rfl
  | cons t s ih =>
    rw [List.map_cons, split]
    by_cases h : t.rep = m
    · rw [if_pos h, List.filter_cons_of_pos (by simp [h]), List.length_cons, ih, List.length_cons]
    · rw [if_neg h, List.filter_cons_of_neg (by simp [h]), ih]

/-- The row starts after the first slot. -/
theorem rest_rows (m : Nat) (s : List (Slot V)) (hs : s ≠ []) :
    (((s.map Slot.rep).drop 1).filter (· == m)).length + 1 =
      (split m s).2.length + (if (split m s).1 = [] then 0 else 1) := by
  cases s with
  | nil => exact absurd rfl hs
  | cons t s =>
    have := filter_rep_length m s
    simp only [List.map_cons, List.drop_succ_cons, List.drop_zero]
    rw [split]
    by_cases h : t.rep = m
    · rw [if_pos h]; simp only [List.length_cons, if_true]; omega
    · rw [if_neg h]; simp only [reduceCtorEq, if_false]; omega

theorem decodeIndex_ok (m : Nat) (S : List (List (Slot V))) (hne : ∀ s ∈ S, s ≠ []) (off : Nat) :
    decodeIndex (idxOf m S) (nextPre m S) off = some (blocksOf m S off) := by
  induction S generalizing off with
  | nil => rfl
  | cons s ss ih =>
    have hs := hne s List.mem_cons_self
    have hr := rest_rows m s hs
    have hl := leftovers_pos m (s.map Slot.rep) (by simpa using hs)
    have ih' := ih (fun t ht => hne t (List.mem_cons_of_mem _ ht))
    rw [idxOf, idxEntry, blocksOf]
    have hstarts : ∀ b : Bool, b = nextPre m ss →
        decodeIndex ((if b then ((((s.map Slot.rep).drop 1).filter (· == m)).length, leftovers m (s.map Slot.rep))
          else ((((s.map Slot.rep).drop 1).filter (· == m)).length + 1, 0)) :: idxOf m ss) (nextPre m (s :: ss)) off =
        some (⟨off, (split m s).2.length, !(split m s).1.isEmpty, b⟩ :: blocksOf m ss (off + (split m s).2.length)) := by
      intro b hb
      have hpre : nextPre m (s :: ss) = !(split m s).1.isEmpty := rfl
      rw [hpre]
      cases b with
      | true =>
        simp only [if_true, decodeIndex]
        have hp : decide (0 < leftovers m (s.map Slot.rep)) = true := by simpa using Nat.pos_of_ne_zero hl
        rw [hp]
        simp only [if_true]
        cases hq : (split m s).1 with
        | nil =>
          simp only [hq, if_true] at hr
          simp only [List.isEmpty_nil, Bool.not_true, Bool.false_eq_true, false_and, if_false, hr, Nat.add_zero]
          rw [hb, ih']
        | cons x xs =>
          simp only [hq, reduceCtorEq, if_false] at hr
          simp only [List.isEmpty_cons, Bool.not_false, hr, Nat.add_sub_cancel]
          rw [if_neg (by omega), if_pos trivial, hb, ih']
      | false =>
        simp only [Bool.false_eq_true, if_false, decodeIndex]
        simp only [Nat.lt_irrefl, decide_false, Bool.false_eq_true, if_false]
        cases hq : (split m s).1 with
        | nil =>
          simp only [hq, if_true] at hr
          simp only [List.isEmpty_nil, Bool.not_true, Bool.false_eq_true, false_and, if_false, hr, Nat.add_zero]
          rw [hb, ih']
        | cons x xs =>
          simp only [hq, reduceCtorEq, if_false] at hr
          simp only [List.isEmpty_cons, Bool.not_false, hr, Nat.add_sub_cancel]
          rw [if_neg (by omega), if_pos trivial, hb, ih']
    exact hstarts _ rfl

theorem pairs_flatMap (l : List (Nat × Nat)) : pairs (l.flatMap fun e => [e.1, e.2]) = l := by
  induction l with
  | nil => rfl
  | cons e l ih => rw [List.flatMap_cons]; simp [pairs, ih]

/-- Without lists every slot is a row. -/
theorem blocks_flat (S : List (List (Slot V))) (h : ∀ s ∈ S, ∀ t ∈ s, t.rep = 0) (off : Nat) :
    decodeIndex (S.map fun s => (s.length, 0)) false off = some (blocksOf 0 S off) := by
  induction S generalizing off with
  | nil => rfl
  | cons s ss ih =>
    have hs := split_flat s (h s List.mem_cons_self)
    have hn : nextPre 0 ss = false := by
      cases ss with
      | nil => rfl
      | cons t ts =>
        rw [nextPre, split_flat t (h t (by simp))]; rfl
    rw [List.map_cons, decodeIndex, blocksOf, hs, hn]
    simp [ih (fun t ht => h t (List.mem_cons_of_mem _ ht))]

/-- A prefix of rows that starts some of them: the last one may be cut. -/
theorem prefix_rows (m : Nat) (rows : List (List (Slot V))) (hr : ∀ r ∈ rows, IsRow m r) (a b : List (Slot V))
    (h : a ++ b = rows.flatten) (j : Nat) (hj : (split m a).2.length = j + 1) :
    ∃ X, X ≠ [] ∧ a = (rows.take j).flatten ++ X ∧ rows[j]? = some (X ++ (split m b).1) := by
  have hsp := split_isRows m rows hr
  rw [← h, split_append] at hsp
  have h1 : (split m a).1 = [] := by
    by_cases he : (split m a).2 = []
    · rw [he] at hj; simp at hj
    · have := congrArg Prod.fst hsp
      unfold glue at this
      simpa [he] using this
  have he : (split m a).2 ≠ [] := by intro he; rw [he] at hj; simp at hj
  have h2 : rows = extendLast (split m a).2 (split m b).1 ++ (split m b).2 := by
    have := congrArg Prod.snd hsp
    unfold glue at this
    simpa [he] using this.symm
  obtain ⟨init, X, hX⟩ : ∃ init X, (split m a).2 = init ++ [X] :=
    ⟨_, _, (List.dropLast_concat_getLast he).symm⟩
  have hil : init.length = j := by
    rw [hX] at hj; simp at hj; omega
  have hext : extendLast (split m a).2 (split m b).1 = init ++ [X ++ (split m b).1] := by
    rw [hX, extendLast_append _ _ _ (by simp)]
    rfl
  rw [hext] at h2
  have hXr : IsRow m X := split_rows m a X (by rw [hX]; simp)
  refine ⟨X, ?_, ?_, ?_⟩
  · intro hc; subst hc; exact hXr
  · have := split_flatten m a
    rw [h1, hX] at this
    rw [h2, List.append_assoc, List.take_left' hil, ← this]
    simp
  · rw [h2, List.append_assoc, List.getElem?_append_right (by omega), hil]
    simp

theorem isRow_of_rowOk (r : Rows V) (row : List (Slot V)) (h : RowOk r row) : IsRow (listDepth r.layers) row := by
  cases row with
  | nil => exact h
  | cons s rest => exact ⟨h.1, fun t ht => Nat.ne_of_lt (h.2.1 t ht)⟩

theorem slotsOk_of_rows (r : Rows V) (h : RowsOk r) (hf : FlatLists r) : SlotsOk r r.rows.flatten := by
  constructor
  · intro t ht
    obtain ⟨row, hrow, htr⟩ := List.mem_flatten.mp ht
    have := h.rows row hrow
    cases row with
    | nil => exact absurd this (by simp [RowOk])
    | cons s rest =>
      refine ⟨this.2.2 t htr, ?_⟩
      rcases List.mem_cons.mp htr with h1 | h1
      · rw [h1, this.1]; omega
      · exact Nat.le_of_lt (this.2.1 t h1)
  · intro t ht hv
    obtain ⟨row, hrow, htr⟩ := List.mem_flatten.mp ht
    have h1 := hf row hrow t htr hv
    have := h.rows row hrow
    rw [h1] at this
    exact this.1

theorem NE_get (S : List (List (Slot V))) (h : NE S) (k : Nat) (hk : k + 1 < S.length) : slotsAt S k ≠ [] := by
  induction S generalizing k with
  | nil => simp at hk
  | cons s ss ih =>
    cases ss with
    | nil => simp at hk
    | cons t ts =>
      cases k with
      | zero => exact h.1
      | succ k => exact ih h.2 k (by simpa using hk)

theorem first_isRow (m : Nat) (rows : List (List (Slot V))) (hr : ∀ r ∈ rows, IsRow m r) (a b : List (Slot V))
    (h : a ++ b = rows.flatten) (ha : a ≠ []) : 0 < (split m a).2.length := by
  cases a with
  | nil => exact absurd rfl ha
  | cons y a =>
    cases rows with
    | nil => simp at h
    | cons row rows =>
      have := hr row List.mem_cons_self
      cases row with
      | nil => exact absurd this (by simp [IsRow])
      | cons x t =>
        simp only [List.cons_append, List.flatten_cons, List.cons.injEq] at h
        rw [split, h.1, if_pos this.1]
        simp

theorem startOk (r : Rows V) (hr : RowsOk r) (hf : FlatLists r) (S : List (List (Slot V)))
    (hS : S.flatten = r.rows.flatten) (hNE : NE S) (chunks : List Chunk) (hlen : chunks.length = S.length)
    (hvb : ∀ k, k < S.length → valuesBefore chunks k = nv (S.take k).flatten) (start : Nat)
    (hst : start < r.rows.length) (hfill : 0 < start → ∀ k, ¬ Fills chunks r.rows (start - 1) k) :
    StartOk (listDepth r.layers) S start := by
  have hrows : ∀ row ∈ r.rows, IsRow (listDepth r.layers) row := fun row h => isRow_of_rowOk r row (hr.rows row h)
  intro k hk hb
  apply Nat.pos_of_ne_zero
  intro h0
  have hb1 := rowsBefore_succ (listDepth r.layers) S k hk
  rw [h0, hb] at hb1
  have hall : rowsBefore (listDepth r.layers) S S.length = r.rows.length := by
    unfold rowsBefore
    rw [List.take_length, hS, split_isRows _ _ hrows]
  have hk1 : k + 1 < S.length := by
    apply Classical.byContradiction
    intro hc
    have : k + 1 = S.length := by omega
    rw [this, hall] at hb1
    omega
  have hsk := NE_get S hNE k hk1
  have hpre : ∀ j, (S.take j).flatten ++ (S.drop j).flatten = r.rows.flatten := by
    intro j; rw [← List.flatten_append, List.take_append_drop, hS]
  have hsucc : (S.take (k + 1)).flatten = (S.take k).flatten ++ slotsAt S k := by
    rw [flatten_take_succ S k hk]
  have hne1 : (S.take (k + 1)).flatten ≠ [] := by
    rw [hsucc]
    intro hc
    exact hsk (List.append_eq_nil_iff.mp hc).2
  cases start with
  | zero =>
    have := first_isRow _ r.rows hrows _ _ (hpre (k + 1)) hne1
    unfold rowsBefore at hb1
    omega
  | succ j =>
    obtain ⟨X, hX1, hX2, hX3⟩ := prefix_rows _ r.rows hrows _ _ (hpre k) j hb
    obtain ⟨X', hX1', hX2', hX3'⟩ := prefix_rows _ r.rows hrows _ _ (hpre (k + 1)) j hb1
    rw [hsucc, hX2, List.append_assoc] at hX2'
    have hXX := List.append_cancel_left hX2'
    obtain ⟨x, X0, hx⟩ := List.exists_cons_of_ne_nil hX1
    have hrow : X' ++ (split (listDepth r.layers) (S.drop (k + 1)).flatten).1 ∈ r.rows := List.mem_of_getElem? hX3'
    have hxv : x.val.isSome = true := by
      cases hv : x.val with
      | some v => rfl
      | none =>
        have h1 := hf _ hrow x (by rw [← hXX, hx]; simp) hv
        have h2 := congrArg List.length h1
        rw [← hXX, hx] at h2
        have h3 := List.length_pos_iff.mpr hsk
        simp only [List.length_append, List.length_cons, List.length_nil] at h2
        omega
    refine hfill (by omega) k ⟨by omega, ?_, ?_⟩
    · rw [hvb k hk, hX2, nv_append, hx, nv_cons, hxv]
      show nv (r.rows.take j).flatten < _
      simp only [if_true]
      omega
    · rw [hvb (k + 1) hk1, hsucc, hX2, List.append_assoc, hXX, nv_append]
      show _ ≤ nv (r.rows.take (j + 1)).flatten
      have h1 : r.rows.take (j + 1) = r.rows.take j ++ [X' ++ (split (listDepth r.layers) (S.drop (k + 1)).flatten).1] := by
        rw [List.take_add_one, hX3']
        rfl
      rw [h1, List.flatten_append, nv_append]
      simp only [List.flatten_cons, List.flatten_nil, List.append_nil, nv_append]
      omega

end Verif.Mini
