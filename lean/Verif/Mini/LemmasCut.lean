import Verif.Mini.LemmasDecode
/-!
# Mini-block pages: how the writer cuts the levels
-/
namespace Verif.Mini

variable {V : Type}

/-- The position after the `n`-th value. -/
def pos : Nat → List (Slot V) → Nat
  | 0, _ => 0
  | _ + 1, [] => 0
  | n + 1, t :: l => 1 + pos (if t.val.isSome then n else n + 1) l

theorem pos_le (n : Nat) (l : List (Slot V)) : pos n l ≤ l.length := by
  induction l generalizing n with
  | nil => cases n <;> simp [pos]
  | cons t l ih =>
    cases n with
    | zero => simp [pos]
    | succ n =>
      have := ih (if t.val.isSome then n else n + 1)
      simp only [pos, List.length_cons]
      omega

theorem nv_cons (t : Slot V) (l : List (Slot V)) : nv (t :: l) = (if t.val.isSome then 1 else 0) + nv l := by
  cases h : t.val <;> simp [nv, valsOf, h] <;> omega

theorem nv_take_pos (n : Nat) (l : List (Slot V)) (h : n ≤ nv l) : nv (l.take (pos n l)) = n := by
  induction l generalizing n with
  | nil => cases n <;> simp_all [pos, nv, valsOf]
  | cons t l ih =>
    cases n with
    | zero => simp [pos, nv, valsOf]
    | succ n =>
      rw [nv_cons] at h
      rw [pos, Nat.add_comm, List.take_succ_cons, nv_cons, ih]
      · by_cases hc : t.val.isSome = true
        · simp only [hc, if_true]; omega
        · simp only [hc, if_false, Bool.false_eq_true]; omega
      · by_cases hc : t.val.isSome = true
        · simp only [hc, if_true] at h ⊢; omega
        · simp only [hc, if_false, Bool.false_eq_true] at h ⊢; omega

theorem pos_pos (n : Nat) (l : List (Slot V)) (h : n ≤ nv l) (hn : 0 < n) : 0 < pos n l := by
  cases n with
  | zero => omega
  | succ n =>
    cases l with
    | nil => simp [nv, valsOf] at h
    | cons t l => simp only [pos]; omega

theorem pos_visible (n : Nat) (l : List (Slot V)) (h : ∀ t ∈ l, t.val.isSome = true) (hn : n ≤ l.length) : pos n l = n := by
  induction l generalizing n with
  | nil => cases n <;> simp_all [pos]
  | cons t l ih =>
    cases n with
    | zero => rfl
    | succ n =>
      rw [pos, h t List.mem_cons_self]
      simp only [if_true]
      rw [ih n (fun x hx => h x (List.mem_cons_of_mem _ hx)) (by simpa using hn)]
      omega

theorem passVisible_ok (mv n : Nat) (l : List (Slot V)) (hv : ∀ t ∈ l, t.val.isSome = true ↔ t.dfn ≤ mv)
    (h : n ≤ nv l) : passVisible mv n (l.map Slot.dfn) = some (pos n l) := by
  induction l generalizing n with
  | nil =>
    cases n with
    | zero => rfl
    | succ n => simp [nv, valsOf] at h
  | cons t l ih =>
    cases n with
    | zero => rfl
    | succ n =>
      have ht := hv t List.mem_cons_self
      have hl : ∀ x ∈ l, x.val.isSome = true ↔ x.dfn ≤ mv := fun x hx => hv x (List.mem_cons_of_mem _ hx)
      rw [nv_cons] at h
      rw [List.map_cons, passVisible, pos]
      by_cases hc : t.dfn ≤ mv
      · have h2 := ht.mpr hc
        rw [h2] at h ⊢
        simp only [if_true] at h ⊢
        rw [if_pos hc, ih n hl (by omega)]
        simp [Nat.add_comm]
      · have h2 : ¬ t.val.isSome = true := fun h => hc (ht.mp h)
        simp only [h2, if_false, Bool.false_eq_true] at h ⊢
        rw [if_neg hc, ih (n + 1) hl (by omega)]
        simp [Nat.add_comm]

/-- The slots cut so that each part has the given number of values; the last part gets the rest. -/
def cutAt : List Nat → List (Slot V) → List (List (Slot V))
  | [], _ => []
  | [_], l => [l]
  | n :: n' :: ns, l => l.take (pos n l) :: cutAt (n' :: ns) (l.drop (pos n l))

theorem cutAt_length (ns : List Nat) (l : List (Slot V)) : (cutAt ns l).length = ns.length := by
  induction ns generalizing l with
  | nil => rfl
  | cons n ns ih =>
    cases ns with
    | nil => rfl
    | cons n' ns => simp [cutAt, ih]

theorem cutAt_flatten (ns : List Nat) (l : List (Slot V)) (h : ns ≠ []) : (cutAt ns l).flatten = l := by
  induction ns generalizing l with
  | nil => exact absurd rfl h
  | cons n ns ih =>
    cases ns with
    | nil => simp [cutAt]
    | cons n' ns => rw [cutAt, List.flatten_cons, ih _ (by simp), List.take_append_drop]

theorem nv_drop_pos (n : Nat) (l : List (Slot V)) (h : n ≤ nv l) : nv (l.drop (pos n l)) = nv l - n := by
  have h1 := nv_take_pos n l h
  have h2 : nv l = nv (l.take (pos n l)) + nv (l.drop (pos n l)) := by rw [← nv_append, List.take_append_drop]
  omega

/-- The parts hold the values they should. -/
theorem cutAt_vals (parts : List (List V)) (l : List (Slot V)) (h : parts.flatten = valsOf l) (hne : parts ≠ []) :
    (cutAt (parts.map List.length) l).map valsOf = parts := by
  induction parts generalizing l with
  | nil => exact absurd rfl hne
  | cons q ps ih =>
    cases ps with
    | nil => simpa [cutAt] using h.symm
    | cons q' ps =>
      have hle : q.length ≤ nv l := by
        unfold nv; rw [← h, List.flatten_cons, List.length_append]; omega
      have h1 := nv_take_pos q.length l hle
      have h2 : valsOf l = valsOf (l.take (pos q.length l)) ++ valsOf (l.drop (pos q.length l)) := by
        rw [← valsOf_append, List.take_append_drop]
      rw [h2, List.flatten_cons] at h
      obtain ⟨e1, e2⟩ := List.append_inj h h1.symm
      rw [List.map_cons, List.map_cons, cutAt, List.map_cons, ← e1]
      congr 1
      rw [List.map_cons] at ih
      exact ih _ e2 (by simp)

theorem maxVisible_none (r : Rows V) (h : listDepth r.layers = 0) : r.repDefs.maxVisible = none := by
  unfold RepDefs.maxVisible Rows.repDefs
  simp only [Option.map_eq_none_iff, List.findIdx?_eq_none_iff]
  intro x hx
  unfold listDepth at h
  rw [List.countP_eq_zero] at h
  simpa using h x hx

theorem maxVisible_some (layers : List Layer) (h : listDepth layers ≠ 0) :
    (layers.findIdx? Layer.isList).map (fun i => ((layers.map Layer.defLevels).take i).sum) = some (innerLevels layers) := by
  induction layers with
  | nil => exact absurd rfl h
  | cons l ls ih =>
    rw [List.findIdx?_cons]
    cases hl : l.isList
    · have h' : listDepth ls ≠ 0 := by
        unfold listDepth at *
        rw [List.countP_cons, hl] at h
        simpa using h
      have := ih h'
      simp only [Bool.false_eq_true, if_false, Option.map_map, innerLevels, hl]
      cases hf : ls.findIdx? Layer.isList with
      | none => rw [hf] at this; simp at this
      | some i =>
        rw [hf] at this
        simp only [Option.map_some, Option.some.injEq] at this
        simp only [Option.map_some, Option.some.injEq, Function.comp, List.map_cons, List.take_succ_cons, List.sum_cons]
        rw [this]
    · simp [innerLevels, hl]

/-- What the slicer does, whatever the levels are of. -/
theorem sliceNext_ok (r : Rows V) (hok : ∀ t ∈ r.rows.flatten, SlotOk r t) (f : Slot V → Nat) (cur n : Nat)
    (hcur : cur ≤ r.rows.flatten.length) (hn : n ≤ nv (r.rows.flatten.drop cur)) :
    sliceNext r.repDefs (r.rows.flatten.map f) cur n =
      some (((r.rows.flatten.drop cur).take (pos n (r.rows.flatten.drop cur))).map f,
        cur + pos n (r.rows.flatten.drop cur)) := by
  have hpl := pos_le n (r.rows.flatten.drop cur)
  rw [List.length_drop] at hpl
  have hsl : ∀ p, p = pos n (r.rows.flatten.drop cur) → sliceLen (r.rows.flatten.map f) cur p =
      some (((r.rows.flatten.drop cur).take p).map f) := by
    intro p hp
    unfold sliceLen
    rw [if_pos (by rw [List.length_map]; omega), List.map_take, List.map_drop]
  have hall : (∀ t ∈ r.rows.flatten, t.val.isSome = true) → pos n (r.rows.flatten.drop cur) = n := by
    intro h
    apply pos_visible
    · intro t ht; exact h t (List.mem_of_mem_drop ht)
    · have := nv_add_ninv (r.rows.flatten.drop cur)
      omega
  unfold sliceNext
  by_cases h0 : listDepth r.layers = 0
  · rw [maxVisible_none r h0]
    simp only
    have hp := hall fun t ht => (hok t ht).1.mpr (Or.inl h0)
    rw [hsl n hp.symm, ← hp]
    simp [hp]
  · have hmv : r.repDefs.maxVisible = some (innerLevels r.layers) := maxVisible_some r.layers h0
    rw [hmv]
    simp only
    have hvis : ∀ t ∈ r.rows.flatten, t.val.isSome = true ↔ t.dfn ≤ innerLevels r.layers := by
      intro t ht
      have := (hok t ht).1
      simpa [h0] using this
    cases hw : r.withDefs with
    | true =>
      have : r.repDefs.defs = some (r.rows.flatten.map Slot.dfn) := by
        simp [Rows.repDefs, defsOf, hw]
      rw [this]
      simp only [List.length_map]
      rw [if_pos hcur, ← List.map_drop,
        passVisible_ok _ n _ (fun t ht => hvis t (List.mem_of_mem_drop ht)) hn]
      simp only
      rw [hsl _ rfl]
      rfl
    | false =>
      have : r.repDefs.defs = none := by simp [Rows.repDefs, defsOf, hw]
      rw [this]
      simp only
      have hp := hall fun t ht => (hvis t ht).mpr (by rw [(hok t ht).2.1 hw]; omega)
      rw [hsl n hp.symm, ← hp]
      simp [hp]

/-- The entry of the repetition index for a slice, given the ones after it. -/
def idxEntry (m : Nat) (s : List (Slot V)) (ss : List (List (Slot V))) : Nat × Nat :=
  let rows := (((s.map Slot.rep).drop 1).filter (· == m)).length
  if nextPre m ss then (rows, leftovers m (s.map Slot.rep)) else (rows + 1, 0)

def idxOf (m : Nat) : List (List (Slot V)) → List (Nat × Nat)
  | [] => []
  | s :: ss => idxEntry m s ss :: idxOf m ss

/-- The chunks but the last one tell how many values they hold. -/
def LogsOk : List Chunk → List Nat → Prop
  | [], [] => True
  | [_], [_] => True
  | c :: c' :: cs, n :: n' :: ns => 0 < c.logNumValues ∧ 2 ^ c.logNumValues = n ∧ LogsOk (c' :: cs) (n' :: ns)
  | _, _ => False

theorem levelsLoop_out (r : Rows V) (hok : ∀ t ∈ r.rows.flatten, SlotOk r t) (f : Slot V → Nat) (total m : Nat)
    (chunks : List Chunk) :
    ∀ (ns : List Nat) (cur counter : Nat) (idx : List (Nat × Nat)) (out : List (List Nat)) (idx' : List (Nat × Nat)),
      LogsOk chunks ns → ns.sum = nv (r.rows.flatten.drop cur) → cur ≤ r.rows.flatten.length →
      levelsLoop r.repDefs (r.rows.flatten.map f) total m chunks cur counter idx = some (out, idx') →
      out = (cutAt ns (r.rows.flatten.drop cur)).map (fun s => s.map f) := by
  induction chunks with
  | nil =>
    intro ns cur counter idx out idx' hl hs hc h
    cases ns with
    | nil => simp only [levelsLoop, Option.some.injEq, Prod.mk.injEq] at h; rw [← h.1]; rfl
    | cons n ns => exact absurd hl (by simp [LogsOk])
  | cons c cs ih =>
    intro ns cur counter idx out idx' hl hs hc h
    cases ns with
    | nil => exact absurd hl (by cases cs <;> simp [LogsOk])
    | cons n ns =>
      cases cs with
      | nil =>
        cases ns with
        | cons n' ns => exact absurd hl (by simp [LogsOk])
        | nil =>
          rw [levelsLoop] at h
          simp only [if_true, levelsLoop] at h
          split at h
          · exact absurd h (by simp)
          · simp only [Option.some.injEq, Prod.mk.injEq] at h
            rw [← h.1]
            simp [cutAt, List.map_drop]
      | cons c' cs =>
        cases ns with
        | nil => exact absurd hl (by simp [LogsOk])
        | cons n' ns =>
          obtain ⟨l1, l2, l3⟩ := hl
          rw [List.sum_cons] at hs
          have hnum : c.numValues counter total = n := by
            unfold Chunk.numValues; rw [if_neg (by omega), l2]
          have hn : n ≤ nv (r.rows.flatten.drop cur) := by omega
          rw [levelsLoop] at h
          simp only [hnum, reduceCtorEq, if_false, sliceNext_ok r hok f cur n hc hn] at h
          split at h
          · exact absurd h (by simp)
          · split at h
            · exact absurd h (by simp)
            · rename_i out2 idx2 hrec
              simp only [Option.some.injEq, Prod.mk.injEq] at h
              have hpl := pos_le n (r.rows.flatten.drop cur)
              rw [List.length_drop] at hpl
              have hdd : r.rows.flatten.drop (cur + pos n (r.rows.flatten.drop cur)) =
                  (r.rows.flatten.drop cur).drop (pos n (r.rows.flatten.drop cur)) := by rw [List.drop_drop]
              have := ih (n' :: ns) _ _ _ _ _ l3 (by rw [hdd, nv_drop_pos _ _ hn]; omega) (by omega) hrec
              rw [← h.1, this, hdd]
              rfl

theorem headRep (m : Nat) (s : List (Slot V)) (x : Nat) (tl : List Nat) (h : s.map Slot.rep = x :: tl) :
    (x = m ↔ (split m s).1 = []) := by
  cases s with
  | nil => simp at h
  | cons t s =>
    simp only [List.map_cons, List.cons.injEq] at h
    rw [← h.1, split]
    by_cases hc : t.rep = m <;> simp [hc]

theorem leftovers_pos (m : Nat) (ls : List Nat) (h : ls ≠ []) : leftovers m ls ≠ 0 := by
  unfold leftovers
  split
  · omega
  · have := List.length_pos_iff.mpr h
    omega

/-- The correction of an entry makes it the right one. -/
theorem fixPrev_ok (m : Nat) (s : List (Slot V)) (ss : List (List (Slot V))) (s' : List (Slot V)) (hs : s ≠ [])
    (older : List (Nat × Nat)) (res : List (Nat × Nat))
    (h : fixPrev m (s'.map Slot.rep) (((((s.map Slot.rep).drop 1).filter (· == m)).length,
      leftovers m (s.map Slot.rep)) :: older) = some res) :
    s' ≠ [] ∧ res = idxEntry m s (s' :: ss) :: older := by
  unfold fixPrev at h
  simp only at h
  cases hs' : s'.map Slot.rep with
  | nil => rw [hs'] at h; simp at h
  | cons x tl =>
    rw [hs'] at h
    simp only [Option.some.injEq] at h
    have hne : s' ≠ [] := by intro hc; subst hc; simp at hs'
    refine ⟨hne, ?_⟩
    have hx := headRep m s' x tl hs'
    have hl := leftovers_pos m (s.map Slot.rep) (by simpa using hs)
    rw [← h]
    by_cases hc : x = m
    · rw [if_pos ⟨hc, hl⟩]
      simp [idxEntry, nextPre, hx.mp hc]
    · rw [if_neg (fun h => hc h.1)]
      have : ¬ (split m s').1 = [] := fun h => hc (hx.mpr h)
      simp [idxEntry, nextPre, this]

theorem levelsLoop_idx (r : Rows V) (hok : ∀ t ∈ r.rows.flatten, SlotOk r t) (total m : Nat) (hm : 0 < m)
    (chunks : List Chunk) :
    ∀ (ns : List Nat) (cur counter : Nat) (idx : List (Nat × Nat)) (out : List (List Nat)) (idx' : List (Nat × Nat)),
      LogsOk chunks ns → ns.sum = nv (r.rows.flatten.drop cur) → cur ≤ r.rows.flatten.length → chunks ≠ [] →
      levelsLoop r.repDefs (r.rows.flatten.map Slot.rep) total m chunks cur counter idx = some (out, idx') →
      ∃ s ss idx0, cutAt ns (r.rows.flatten.drop cur) = s :: ss ∧
        fixPrev m (s.map Slot.rep) idx = some idx0 ∧ idx' = (idxOf m (s :: ss)).reverse ++ idx0 ∧
        ∀ t ∈ ss, t ≠ [] := by
  induction chunks with
  | nil => intro ns cur counter idx out idx' hl hs hc hne; exact absurd rfl hne
  | cons c cs ih =>
    intro ns cur counter idx out idx' hl hs hc _ h
    cases ns with
    | nil => exact absurd hl (by cases cs <;> simp [LogsOk])
    | cons n ns =>
      cases cs with
      | nil =>
        cases ns with
        | cons n' ns => exact absurd hl (by simp [LogsOk])
        | nil =>
          rw [levelsLoop] at h
          simp only [if_true, levelsLoop, hm, gt_iff_lt] at h
          rw [← List.map_drop] at h
          cases hf : fixPrev m ((r.rows.flatten.drop cur).map Slot.rep) idx with
          | none => rw [hf] at h; simp at h
          | some idx0 =>
            rw [hf] at h
            simp only [Option.map_some, Option.some.injEq, Prod.mk.injEq] at h
            refine ⟨_, [], idx0, rfl, hf, ?_, by simp⟩
            rw [← h.2]
            simp [idxOf, idxEntry, nextPre]
      | cons c' cs =>
        cases ns with
        | nil => exact absurd hl (by simp [LogsOk])
        | cons n' ns =>
          obtain ⟨l1, l2, l3⟩ := hl
          rw [List.sum_cons] at hs
          have hnum : c.numValues counter total = n := by
            unfold Chunk.numValues; rw [if_neg (by omega), l2]
          have hn : n ≤ nv (r.rows.flatten.drop cur) := by omega
          have hn0 : 0 < n := by rw [← l2]; exact Nat.two_pow_pos _
          have hpp := pos_pos n _ hn hn0
          have hpl := pos_le n (r.rows.flatten.drop cur)
          have hsne : (r.rows.flatten.drop cur).take (pos n (r.rows.flatten.drop cur)) ≠ [] := by
            intro hcon
            have := congrArg List.length hcon
            rw [List.length_take] at this
            simp only [List.length_nil] at this
            omega
          rw [List.length_drop] at hpl
          rw [levelsLoop] at h
          simp only [hnum, reduceCtorEq, if_false, sliceNext_ok r hok Slot.rep cur n hc hn, hm, gt_iff_lt, if_true] at h
          cases hf : fixPrev m (((r.rows.flatten.drop cur).take (pos n (r.rows.flatten.drop cur))).map Slot.rep) idx with
          | none => rw [hf] at h; simp at h
          | some idx0 =>
            rw [hf] at h
            simp only [Option.map_some] at h
            split at h
            · exact absurd h (by simp)
            · rename_i out2 idx2 hrec
              simp only [Option.some.injEq, Prod.mk.injEq] at h
              have hdd : r.rows.flatten.drop (cur + pos n (r.rows.flatten.drop cur)) =
                  (r.rows.flatten.drop cur).drop (pos n (r.rows.flatten.drop cur)) := by rw [List.drop_drop]
              obtain ⟨s', ss', idx0', e1, e2, e3, e4⟩ := ih (n' :: ns) _ _ _ _ _ l3
                (by rw [hdd, nv_drop_pos _ _ hn]; omega) (by omega) (by simp) hrec
              obtain ⟨e5, e6⟩ := fixPrev_ok m _ ss' s' hsne _ _ e2
              rw [hdd] at e1
              refine ⟨_, s' :: ss', idx0, by rw [cutAt, e1], hf, ?_, ?_⟩
              · rw [← h.2, e3, e6]
                conv => rhs; rw [idxOf]
                simp
              · intro t ht
                rcases List.mem_cons.mp ht with h | h
                · rw [h]; exact e5
                · exact e4 t h

end Verif.Mini
