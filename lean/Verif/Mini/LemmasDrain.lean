import Verif.Mini.LemmasRange
/-!
# Mini-block pages: draining batches from instructions
-/
namespace Verif.Mini

variable {V : Type}

/-- An instruction of which `s` rows have been taken already. -/
def shift (s : Nat) (i : Instr) : Instr := ⟨i.chunk, i.preamble, i.skip + s, wsub i.take s, i.trailer⟩

def shiftHead (s : Nat) : List Instr → List Instr
  | [] => []
  | i :: rest => shift s i :: rest

theorem shift_zero (i : Instr) (h : i.take < 2 ^ 64) : shift 0 i = i := by
  have hw : wsub i.take 0 = i.take := wsub_le _ 0 (Nat.zero_le _) h
  unfold shift
  rw [hw, Nat.add_zero]

theorem shiftHead_zero (m : Nat) (S : List (List (Slot V))) (need : Bool) (is : List Instr)
    (h : WFI m S need is) : shiftHead 0 is = is := by
  cases is with
  | nil => rfl
  | cons i rest =>
    obtain ⟨_, _, _, _, _, h6, _⟩ := h
    rw [shiftHead, shift_zero i h6]

theorem cnt_shift (i : Instr) (s d : Nat) (hs : s < 2 ^ 64) (hd : d < cnt (shift s i)) (hlt : i.take < 2 ^ 64)
    (hsd : s + d < 2 ^ 64) : cnt (shift (s + d) i) + d = cnt (shift s i) ∧
      (shift (s + d) i).take < 2 ^ 64 := by
  refine ⟨?_, wsub_lt _ _⟩
  have hc : ∀ x, cnt (shift x i) = if i.trailer then wadd (wsub i.take x) 1 else wsub i.take x :=
    fun _ => rfl
  rw [hc] at hd
  rw [hc, hc]
  by_cases ht : i.trailer = true
  · rw [if_pos ht] at hd
    rw [if_pos ht, if_pos ht]
    unfold wsub wadd at *
    omega
  · rw [if_neg ht] at hd
    rw [if_neg ht, if_neg ht]
    unfold wsub at *
    omega

/-- The slots that a drain instruction stands for. -/
def seg (m : Nat) (S : List (List (Slot V))) (d : Drain) : List (Slot V) :=
  (if d.preamble = .take then preAt m S d.instr.chunk else []) ++
    (((rowsAt m S d.instr.chunk).drop (d.skip + d.instr.skip)).take d.take).flatten

/-- A drain instruction that can be carried out. -/
structure DrainOk (m : Nat) (S : List (List (Slot V))) (d : Drain) : Prop where
  chunk : d.instr.chunk < S.length
  fits : d.skip + d.instr.skip + d.take ≤ (rowsAt m S d.instr.chunk).length
  absent : d.preamble = .absent ↔ preAt m S d.instr.chunk = []
  take : d.preamble = .take → d.skip + d.instr.skip = 0
  some : d.preamble ≠ .take → 0 < d.take

/-- The loaded chunks hold what the instructions need, in order. -/
structure LsOk (ls : List Loaded) (is : List Instr) : Prop where
  sorted : (ls.map Loaded.chunk).Pairwise (· ≤ ·)
  order : (is.map Instr.chunk).Pairwise (· ≤ ·)
  mem : ∀ i ∈ is, i.chunk ∈ ls.map Loaded.chunk

theorem dropWhile_chunk (ls : List Loaded) (k : Nat) (hs : (ls.map Loaded.chunk).Pairwise (· ≤ ·))
    (hm : k ∈ ls.map Loaded.chunk) :
    ∃ c cs, ls.dropWhile (fun c => c.chunk ≠ k) = c :: cs ∧ c.chunk = k ∧ c ∈ ls ∧
      (∀ x ∈ c :: cs, x ∈ ls) ∧
      ((c :: cs).map Loaded.chunk).Pairwise (· ≤ ·) ∧
      ∀ j, k ≤ j → j ∈ ls.map Loaded.chunk → j ∈ (c :: cs).map Loaded.chunk := by
  induction ls with
  | nil => simp at hm
  | cons c cs ih =>
    by_cases hc : c.chunk = k
    · rw [List.dropWhile_cons_of_neg (by simp [hc])]
      exact ⟨c, cs, rfl, hc, List.mem_cons_self, fun _ h => h, hs, fun _ _ h => h⟩
    · rw [List.dropWhile_cons_of_pos (by simp [hc])]
      rw [List.map_cons, List.pairwise_cons] at hs
      have hm' : k ∈ cs.map Loaded.chunk := by
        rw [List.map_cons] at hm
        rcases List.mem_cons.mp hm with h | h
        · exact absurd h.symm hc
        · exact h
      obtain ⟨c', cs', h1, h2, h3, h4, h5, h6⟩ := ih hs.2 hm'
      refine ⟨c', cs', h1, h2, List.mem_cons_of_mem _ h3, fun x hx => List.mem_cons_of_mem _ (h4 x hx), h5, ?_⟩
      intro j hj hjm
      rw [List.map_cons] at hjm
      rcases List.mem_cons.mp hjm with h | h
      · have := hs.1 k hm'
        subst h
        exact absurd (Nat.le_antisymm this hj) hc
      · exact h6 j hj h

theorem drainLoop_ok (m : Nat) (S : List (List (Slot V)))
    (hsmall : ∀ k, (rowsAt m S k).length < 2 ^ 64) (is : List Instr) :
    ∀ (ls : List Loaded) (desired : Nat) (need : Bool) (s : Nat),
      WFI m S need (shiftHead s is) → (∀ i ∈ is, i.take < 2 ^ 64) → s < 2 ^ 64 → LsOk ls is →
      desired ≤ (den m S (shiftHead s is)).2.length →
      ∃ task is' ls' s', drainLoop is ls desired need s = some (task, is', ls', s') ∧
        (task.map fun t => seg m S t.1).flatten =
          (if need then (den m S (shiftHead s is)).1 else []) ++
            ((den m S (shiftHead s is)).2.take desired).flatten ∧
        (den m S (shiftHead s' is')).2 = (den m S (shiftHead s is)).2.drop desired ∧
        WFI m S false (shiftHead s' is') ∧ (∀ i ∈ is', i.take < 2 ^ 64) ∧ s' < 2 ^ 64 ∧ LsOk ls' is' ∧
        (∀ t ∈ task, DrainOk m S t.1 ∧ t.2 ∈ ls ∧ t.2.chunk = t.1.instr.chunk) ∧
        (∀ c ∈ ls', c ∈ ls) ∧ (0 < desired → task ≠ []) := by
  induction is with
  | nil =>
    intro ls desired need s hwf hit hs hls hd
    have hn : need = false := hwf
    have h0 : desired = 0 := by simpa [shiftHead, den] using hd
    subst hn; subst h0
    exact ⟨[], [], ls, s, by simp [drainLoop], by simp, by simp, hwf, by simp, hs, hls, by simp, fun _ h => h, by simp⟩
  | cons i rest ih =>
    intro ls desired need s hwf hit hs hls hd
    by_cases hdone : desired = 0 ∧ need = false
    · obtain ⟨h0, hn⟩ := hdone
      subst hn; subst h0
      exact ⟨[], i :: rest, ls, s, by simp [drainLoop], by simp, by simp, hwf, hit, hs, hls, by simp, fun _ h => h, by simp⟩
    obtain ⟨a1, a2, a3, a4, a5, a6, a7, a8⟩ := hwf
    simp only [shift] at a4
    have hchunk : (shift s i).chunk = i.chunk := rfl
    have hpr : (shift s i).preamble = i.preamble := rfl
    have htr : (shift s i).trailer = i.trailer := rfl
    have hskp : (shift s i).skip = i.skip + s := rfl
    rw [hchunk, hpr] at a3
    rw [htr] at a8
    obtain ⟨c, cs, hdw, hck, hcm, hsub, hpw, hkeep⟩ := dropWhile_chunk ls i.chunk hls.sorted
      (hls.mem i List.mem_cons_self)
    have hord := hls.order
    rw [List.map_cons, List.pairwise_cons] at hord
    -- the action
    have haction : ∃ act, drainAction need i.preamble = some act ∧
        (act = .absent ↔ preAt m S i.chunk = []) ∧ (act = .take ↔ need = true) := by
      cases need with
      | true =>
        have := (a2 rfl).2
        rw [hpr] at this
        refine ⟨.take, ?_, ?_, by simp⟩
        · cases h : i.preamble <;> first | rfl | exact absurd h this
        · rw [← a3]; simp [this]
      | false =>
        by_cases hp : i.preamble = .absent
        · exact ⟨.absent, by rw [hp]; rfl, by simp [← a3, hp], by simp⟩
        · refine ⟨.skip, ?_, by simp [← a3, hp], by simp⟩
          cases h : i.preamble <;> first | rfl | exact absurd h hp
    obtain ⟨act, hact, hact1, hact2⟩ := haction
    have hav : (if i.trailer then wadd (wsub i.take s) 1 else wsub i.take s) = cnt (shift s i) := rfl
    have hone : drainOne i desired need s =
        if cnt (shift s i) ≤ desired then
          some (⟨i, s, cnt (shift s i), act⟩, ⟨desired - cnt (shift s i), i.trailer, 0⟩, true)
        else some (⟨i, s, desired, act⟩, ⟨0, false, s + desired⟩, false) := by
      unfold drainOne
      rw [hact]
      rfl
    have htk : taken m S (shift s i) = ((rowsAt m S i.chunk).drop (i.skip + s)).take (cnt (shift s i)) := rfl
    have htklen : (taken m S (shift s i)).length = cnt (shift s i) := by
      rw [htk, List.length_take, List.length_drop]
      rw [hchunk, hskp] at a5
      omega
    rw [drainLoop, if_neg hdone]
    simp only [hone]
    simp only [hdw]
    by_cases hfull : cnt (shift s i) ≤ desired
    · rw [if_pos hfull]
      simp only [if_true]
      have hrest : LsOk (c :: cs) rest := by
        refine ⟨hpw, hord.2, ?_⟩
        intro j hj
        exact hkeep j.chunk (hord.1 _ (List.mem_map_of_mem hj)) (hls.mem j (List.mem_cons_of_mem _ hj))
      have hwf0 : WFI m S i.trailer (shiftHead 0 rest) := by
        rw [shiftHead_zero m S i.trailer rest a8]; exact a8
      have hden0 : den m S (shiftHead 0 rest) = den m S rest := by
        rw [shiftHead_zero m S i.trailer rest a8]
      -- what is left
      have hlen : desired - cnt (shift s i) ≤ (den m S (shiftHead 0 rest)).2.length := by
        rw [hden0]
        simp only [shiftHead, den, htr] at hd
        by_cases hit' : i.trailer = true
        · rw [if_pos hit'] at hd
          simp only [glue] at hd
          by_cases ht0 : taken m S (shift s i) = []
          · rw [if_pos ht0] at hd
            simp only at hd; omega
          · rw [if_neg ht0] at hd
            simp only [List.length_append, extendLast_length] at hd
            omega
        · rw [if_neg hit'] at hd
          simp only [List.length_append] at hd
          omega
      obtain ⟨task, is', ls', s', hrun, hseg, hden, hwf', hit', hs', hls', htask, hsub', _⟩ :=
        ih (c :: cs) (desired - cnt (shift s i)) i.trailer 0 hwf0
          (fun j hj => hit j (List.mem_cons_of_mem _ hj)) (by omega) hrest hlen
      rw [hrun]
      rw [hden0] at hseg hden
      have hsegi : seg m S ⟨i, s, cnt (shift s i), act⟩ =
          (if need then preAt m S i.chunk else []) ++ (taken m S (shift s i)).flatten := by
        simp only [seg, htk, Nat.add_comm s i.skip]
        by_cases hn : need = true
        · rw [if_pos (hact2.mpr hn), if_pos hn]
        · rw [if_neg (fun h => hn (hact2.mp h)), if_neg hn]
      have hnn : need = false → taken m S (shift s i) ≠ [] := a1
      refine ⟨_, _, _, _, rfl, ?_, ?_, hwf', hit', hs', hls', ?_, ?_, by simp⟩
      · simp only [List.map_cons, List.flatten_cons, hsegi, hseg]
        simp only [shiftHead, den, htr, hchunk]
        by_cases hit2 : i.trailer = true
        · simp only [hit2, if_true, glue]
          by_cases ht0 : taken m S (shift s i) = []
          · have hn : need = true := by
              cases need with
              | true => rfl
              | false => exact absurd ht0 (hnn rfl)
            have hc0 : cnt (shift s i) = 0 := by rw [← htklen, ht0]; rfl
            simp only [ht0, if_true, hn, hc0, Nat.sub_zero, List.flatten_nil, List.append_nil, List.append_assoc]
          · rw [if_neg ht0]
            simp only
            rw [List.take_append, extendLast_length, htklen,
              List.take_of_length_le (l := extendLast _ _) (by rw [extendLast_length]; omega),
              List.flatten_append, extendLast_flatten _ _ ht0]
            simp only [List.append_assoc]
        · simp only [hit2, Bool.false_eq_true, if_false]
          rw [List.take_append, htklen, List.take_of_length_le (l := taken m S (shift s i)) (by omega),
            List.flatten_append]
          simp only [List.nil_append, List.append_assoc]
      · rw [hden]
        simp only [shiftHead, den, htr]
        by_cases hit2 : i.trailer = true
        · simp only [hit2, if_true, glue]
          by_cases ht0 : taken m S (shift s i) = []
          · have hc0 : cnt (shift s i) = 0 := by rw [← htklen, ht0]; rfl
            simp only [ht0, if_true, hc0, Nat.sub_zero]
          · rw [if_neg ht0]
            simp only
            rw [List.drop_append, extendLast_length, htklen,
              List.drop_eq_nil_of_le (as := extendLast _ _) (by rw [extendLast_length]; omega)]
            rfl
        · simp only [hit2, Bool.false_eq_true, if_false]
          rw [List.drop_append, htklen, List.drop_eq_nil_of_le (as := taken m S (shift s i)) (by omega)]
          rfl
      · intro t ht
        rcases List.mem_cons.mp ht with rfl | ht
        · refine ⟨⟨a4, ?_, hact1, ?_, ?_⟩, hcm, hck⟩
          · rw [hchunk, hskp] at a5; simp only; omega
          · intro h
            have := (a2 (hact2.mp h)).1
            rw [hskp] at this
            simp only; omega
          · intro h
            have hn : need = false := by
              cases need with
              | true => exact absurd (hact2.mpr rfl) h
              | false => rfl
            simp only
            rw [← htklen]
            exact List.length_pos_iff.mpr (hnn hn)
        · obtain ⟨h1, h2, h3⟩ := htask t ht
          exact ⟨h1, hsub _ h2, h3⟩
      · intro x hx
        exact hsub x (hsub' x hx)
    · rw [if_neg hfull]
      simp only [Bool.false_eq_true, if_false]
      have hsm := hsmall i.chunk
      rw [hchunk, hskp] at a5
      obtain ⟨hcn, hcl⟩ := cnt_shift i s desired hs (by omega) (hit i List.mem_cons_self) (by omega)
      have htk2 : taken m S (shift (s + desired) i) = (taken m S (shift s i)).drop desired := by
        rw [htk, List.drop_take, List.drop_drop]
        simp only [taken]
        have h1 : (shift (s + desired) i).chunk = i.chunk := rfl
        have h2 : (shift (s + desired) i).skip = i.skip + s + desired := by
          change i.skip + (s + desired) = _; omega
        rw [h1, h2]
        congr 1
        omega
      have ht0 : taken m S (shift s i) ≠ [] := by
        intro hc
        have := congrArg List.length hc
        rw [htklen] at this
        simp only [List.length_nil] at this
        omega
      have ht1 : taken m S (shift (s + desired) i) ≠ [] := by
        intro hc
        have := congrArg List.length hc
        rw [htk2, List.length_drop, htklen] at this
        simp only [List.length_nil] at this
        omega
      refine ⟨_, _, _, _, rfl, ?_, ?_, ?_, hit, by omega, ?_, ?_, hsub, by simp⟩
      · simp only [List.map_cons, List.map_nil, List.flatten_cons, List.flatten_nil, List.append_nil]
        simp only [seg, Nat.add_comm s i.skip]
        have htake : ((den m S (shiftHead s (i :: rest))).2.take desired)
            = (((rowsAt m S i.chunk).drop (i.skip + s)).take desired) := by
          have h2 : (taken m S (shift s i)).take desired = (((rowsAt m S i.chunk).drop (i.skip + s)).take desired) := by
            rw [htk, List.take_take]
            congr 1; omega
          rw [← h2]
          simp only [shiftHead, den, htr]
          by_cases hit2 : i.trailer = true
          · simp only [hit2, if_true, glue]
            rw [if_neg ht0]
            simp only
            rw [List.take_append_of_le_length (by rw [extendLast_length]; omega), extendLast_take _ _ _ (by omega)]
          · simp only [hit2, Bool.false_eq_true, if_false]
            rw [List.take_append_of_le_length (by omega)]
        have hfst : need = true → (den m S (shiftHead s (i :: rest))).1 = preAt m S i.chunk := by
          intro _
          simp only [shiftHead, den, htr, hchunk]
          by_cases hit2 : i.trailer = true
          · simp only [hit2, if_true, glue]
            rw [if_neg ht0]
          · simp only [hit2, Bool.false_eq_true, if_false]
        rw [htake]
        by_cases hn : need = true
        · rw [if_pos (hact2.mpr hn), if_pos hn, hfst hn]
        · rw [if_neg (fun h => hn (hact2.mp h)), if_neg hn]
      · simp only [shiftHead, den, htr]
        have htr2 : (shift (s + desired) i).trailer = i.trailer := rfl
        rw [htr2]
        by_cases hit2 : i.trailer = true
        · simp only [hit2, if_true, glue]
          rw [if_neg ht0, if_neg ht1]
          simp only
          rw [htk2, List.drop_append, extendLast_length]
          have : desired - (taken m S (shift s i)).length = 0 := by omega
          rw [this, List.drop_zero, extendLast_drop]
        · simp only [hit2, Bool.false_eq_true, if_false]
          rw [htk2, List.drop_append]
          have : desired - (taken m S (shift s i)).length = 0 := by omega
          rw [this, List.drop_zero]
      · refine ⟨fun _ => ht1, by simp, a3, a4, ?_, hcl, ?_, a8⟩
        · have h2 : (shift (s + desired) i).skip = i.skip + (s + desired) := rfl
          have h1 : (shift (s + desired) i).chunk = i.chunk := rfl
          rw [h1, h2]; omega
        · intro ht
          have h2 : (shift (s + desired) i).skip = i.skip + (s + desired) := rfl
          have h1 : (shift (s + desired) i).chunk = i.chunk := rfl
          have := a7 ht
          rw [hchunk, hskp] at this
          rw [h1, h2]
          exact ⟨by omega, this.2⟩
      · refine ⟨hpw, hls.order, ?_⟩
        intro j hj
        rcases List.mem_cons.mp hj with rfl | hj'
        · rw [← hck]; exact List.mem_map_of_mem List.mem_cons_self
        · exact hkeep j.chunk (hord.1 _ (List.mem_map_of_mem hj')) (hls.mem j hj)
      · intro t ht
        rcases List.mem_cons.mp ht with rfl | ht
        · refine ⟨⟨a4, by simp only; omega, hact1, ?_, ?_⟩, hcm, hck⟩
          · intro h
            have := (a2 (hact2.mp h)).1
            rw [hskp] at this
            simp only; omega
          · intro h
            have hn : need = false := by
              cases need with
              | true => exact absurd (hact2.mpr rfl) h
              | false => rfl
            have : desired ≠ 0 := fun h0 => hdone ⟨h0, hn⟩
            simp only; omega
        · simp at ht

end Verif.Mini
