import Verif.Mini.LemmasSched
/-!
# Mini-block pages: ranges of rows, and the merge of their instructions
-/
namespace Verif.Mini

variable {V : Type}

/-- The rows that start before slice `k`. -/
def rowsBefore (m : Nat) (S : List (List (Slot V))) (k : Nat) : Nat := (split m (S.take k).flatten).2.length

theorem rowsBefore_succ (m : Nat) (S : List (List (Slot V))) (k : Nat) (h : k < S.length) :
    rowsBefore m S (k + 1) = rowsBefore m S k + (rowsAt m S k).length := by
  rw [rowsBefore, flatten_take_succ S k h, split_length_append]
  rfl

theorem rowsBefore_mono (m : Nat) (S : List (List (Slot V))) (a b : Nat) (h : a ≤ b) :
    rowsBefore m S a ≤ rowsBefore m S b := by
  induction b with
  | zero =>
    have : a = 0 := by omega
    subst this; exact Nat.le_refl _
  | succ b ih =>
    by_cases hab : a = b + 1
    · subst hab; exact Nat.le_refl _
    · have h1 := ih (by omega)
      by_cases hb : b < S.length
      · rw [rowsBefore_succ m S b hb]; omega
      · have : rowsBefore m S (b + 1) = rowsBefore m S b := by
          unfold rowsBefore
          rw [List.take_of_length_le (by omega), List.take_of_length_le (by omega)]
        omega

theorem rowsBefore_all (m : Nat) (S : List (List (Slot V))) :
    rowsBefore m S S.length = (split m S.flatten).2.length := by
  simp [rowsBefore]

theorem rows_drop (m : Nat) (S : List (List (Slot V))) (k : Nat) :
    (split m (S.drop k).flatten).2 = (split m S.flatten).2.drop (rowsBefore m S k) := by
  have h : S.flatten = (S.take k).flatten ++ (S.drop k).flatten := by
    rw [← List.flatten_append, List.take_append_drop]
  rw [h, rowsBefore, split_drop_append]

theorem blocksOf_length (m : Nat) (ss : List (List (Slot V))) (off : Nat) :
    (blocksOf m ss off).length = ss.length := by
  induction ss generalizing off with
  | nil => rfl
  | cons s ss ih => simp [blocksOf, ih]

theorem blocksOf_getElem (m : Nat) (ss : List (List (Slot V))) (off k : Nat) (h : k < ss.length) :
    ∃ b, (blocksOf m ss off)[k]? = some b ∧ b.firstRow = off + rowsBefore m ss k := by
  induction ss generalizing off k with
  | nil => simp at h
  | cons s ss ih =>
    cases k with
    | zero => exact ⟨_, rfl, by simp [rowsBefore, split]⟩
    | succ k =>
      obtain ⟨b, hb, hf⟩ := ih (off + (split m s).2.length) k (by simpa using h)
      refine ⟨b, by simpa [blocksOf] using hb, ?_⟩
      rw [hf]
      unfold rowsBefore
      rw [List.take_succ_cons, List.flatten_cons, split_length_append]
      omega

theorem blocksOf_drop (m : Nat) (ss : List (List (Slot V))) (off k : Nat) :
    (blocksOf m ss off).drop k = blocksOf m (ss.drop k) (off + rowsBefore m ss k) := by
  induction ss generalizing off k with
  | nil => simp [blocksOf]
  | cons s ss ih =>
    cases k with
    | zero => simp [rowsBefore, split]
    | succ k =>
      rw [blocksOf, List.drop_succ_cons, List.drop_succ_cons, ih]
      congr 1
      unfold rowsBefore
      rw [List.take_succ_cons, List.flatten_cons, split_length_append]
      omega

theorem NE_drop (S : List (List (Slot V))) (h : NE S) (k : Nat) : NE (S.drop k) := by
  induction k generalizing S with
  | zero => simpa using h
  | succ k ih =>
    cases S with
    | nil => simpa using h
    | cons s ss => rw [List.drop_succ_cons]; exact ih ss (NE_tail h)

/-- No slice without a row start has `start` as its next row. -/
def StartOk (m : Nat) (S : List (List (Slot V))) (start : Nat) : Prop :=
  ∀ k, k < S.length → rowsBefore m S k = start → 0 < (rowsAt m S k).length

theorem takeWhile_spec {A : Type} (p : A → Bool) (l : List A) :
    (∀ k, k < (l.takeWhile p).length → ∃ a, l[k]? = some a ∧ p a = true) ∧
    (∀ a, l[(l.takeWhile p).length]? = some a → p a = false) := by
  induction l with
  | nil => simp
  | cons x l ih =>
    by_cases hx : p x = true
    · rw [List.takeWhile_cons, if_pos hx]
      refine ⟨?_, ?_⟩
      · intro k hk
        cases k with
        | zero => exact ⟨x, rfl, hx⟩
        | succ k => simpa using ih.1 k (by simpa using hk)
      · intro a ha
        exact ih.2 a (by simpa using ha)
    · rw [List.takeWhile_cons, if_neg hx]
      refine ⟨by simp, ?_⟩
      intro a ha
      simp at ha
      subst ha
      simpa using hx

theorem findBlock_ok (m : Nat) (S : List (List (Slot V))) (start : Nat)
    (hst : StartOk m S start) (hlt : start < (split m S.flatten).2.length) :
    ∃ i, findBlock (blocksOf m S 0) start = some i ∧ i < S.length ∧ rowsBefore m S i ≤ start ∧
      start < rowsBefore m S (i + 1) := by
  unfold findBlock
  cases hf : (blocksOf m S 0).findIdx? (fun b => b.firstRow == start) with
  | some i =>
    rw [List.findIdx?_eq_some_iff_getElem] at hf
    obtain ⟨hi, hb, _⟩ := hf
    rw [blocksOf_length] at hi
    obtain ⟨b, hb', hfr⟩ := blocksOf_getElem m S 0 i hi
    have heq : rowsBefore m S i = start := by
      have h1 : (blocksOf m S 0)[i]? = some ((blocksOf m S 0)[i]'(by rw [blocksOf_length]; exact hi)) := by
        rw [List.getElem?_eq_getElem]
      rw [h1] at hb'
      injection hb' with hb'
      rw [← hb'] at hfr
      simp at hb
      omega
    refine ⟨i, rfl, hi, by omega, ?_⟩
    rw [rowsBefore_succ m S i hi]
    have := hst i hi heq
    omega
  | none =>
    rw [List.findIdx?_eq_none_iff] at hf
    have hne : ∀ k, k < S.length → rowsBefore m S k ≠ start := by
      intro k hk hc
      obtain ⟨b, hb, hfr⟩ := blocksOf_getElem m S 0 k hk
      have := hf b (List.mem_of_getElem? hb)
      simp at this
      omega
    obtain ⟨h1, h2⟩ := takeWhile_spec (fun b : Block => decide (b.firstRow < start)) (blocksOf m S 0)
    generalize hn : ((blocksOf m S 0).takeWhile fun b => decide (b.firstRow < start)).length = n at h1 h2
    have hSpos : 0 < S.length := by
      cases S with
      | nil => simp [split] at hlt
      | cons s ss => simp
    have hnle : n ≤ S.length := by
      rw [← hn, ← blocksOf_length m S 0]
      exact (List.takeWhile_sublist _).length_le
    have hstop : ∀ (_ : n < S.length), start < rowsBefore m S n := by
      intro hlt'
      obtain ⟨b, hb, hfr⟩ := blocksOf_getElem m S 0 n hlt'
      have := h2 b hb
      simp at this
      have := hne n hlt'
      omega
    have hn0 : n ≠ 0 := by
      intro hc
      have := hstop (by omega)
      rw [hc] at this
      simp [rowsBefore, split] at this
    simp only [hn]
    rw [if_neg hn0]
    refine ⟨n - 1, rfl, by omega, ?_, ?_⟩
    · obtain ⟨a, ha, hp⟩ := h1 (n - 1) (by omega)
      obtain ⟨b, hb, hfr⟩ := blocksOf_getElem m S 0 (n - 1) (by omega)
      rw [hb] at ha
      injection ha with ha
      subst ha
      simp at hp
      omega
    · have : n - 1 + 1 = n := by omega
      rw [this]
      by_cases hc : n < S.length
      · exact hstop hc
      · have : n = S.length := by omega
        rw [this, rowsBefore_all]; exact hlt

theorem scheduleRange_ok (m : Nat) (S : List (List (Slot V))) (hNE : NE S)
    (hsmall : ∀ k, (rowsAt m S k).length < 2 ^ 64) (start stop : Nat) (hse : start < stop)
    (hstop : stop ≤ (split m S.flatten).2.length) (hst : StartOk m S start) :
    ∃ is, scheduleRange (blocksOf m S 0) start stop = some is ∧ is ≠ [] ∧
      (den m S is).2 = ((split m S.flatten).2.drop start).take (stop - start) ∧ WFI m S false is ∧
      (∀ i ∈ is, rowsBefore m S i.chunk ≤ stop ∧
        ∀ k, k < S.length → rowsBefore m S k ≤ start → k ≤ i.chunk) ∧
      (is.map Instr.chunk).Pairwise (· < ·) := by
  obtain ⟨i, hi, hlen, hle, hlt⟩ := findBlock_ok m S start hst (by omega)
  obtain ⟨b, hb, hfr⟩ := blocksOf_getElem m S 0 i hlen
  unfold scheduleRange
  rw [hi]
  simp only [hb]
  rw [if_neg (by omega), blocksOf_drop]
  rw [rowsBefore_succ m S i hlen] at hlt
  have hskip : start - b.firstRow = start - rowsBefore m S i := by omega
  have hrd := rows_drop m S i
  obtain ⟨is, his, hden, _, hwf, hck, hne⟩ := scheduleLoop_ok m S stop hsmall (S.drop i) i
    (0 + rowsBefore m S i) (stop - start) false (start - rowsBefore m S i) rfl (NE_drop S hNE i)
    (by simp) (fun _ => Or.inr (by omega)) (by rw [hrd, List.length_drop]; omega)
    (by change rowsBefore m S i + _ + _ = _; omega)
  refine ⟨is, by rw [hskip]; exact his, (hne (Or.inl (by omega))).1, ?_, hwf, ?_, hck.2⟩
  · rw [hden, hrd, List.drop_drop]
    have : rowsBefore m S i + (start - rowsBefore m S i) = start := by omega
    rw [this]
  · intro x hx
    obtain ⟨h1, h2⟩ := hck.1 x hx
    refine ⟨h2, ?_⟩
    intro k hk hks
    apply Classical.byContradiction
    intro hc
    have := rowsBefore_mono m S (i + 1) k (by omega)
    rw [rowsBefore_succ m S i hlen] at this
    omega

theorem WFI_chunk (m : Nat) (S : List (List (Slot V))) (need : Bool) (is : List Instr)
    (h : WFI m S need is) : ∀ i ∈ is, i.chunk < S.length := by
  induction is generalizing need with
  | nil => simp
  | cons i rest ih =>
    obtain ⟨_, _, _, h4, _, _, _, h⟩ := h
    intro x hx
    rcases List.mem_cons.mp hx with rfl | hx
    · exact h4
    · exact ih _ h x hx

theorem scheduleAll_ok (m : Nat) (S : List (List (Slot V))) (hNE : NE S)
    (hsmall : ∀ k, (rowsAt m S k).length < 2 ^ 64) (ranges : List (Nat × Nat)) (at_ : Nat)
    (hr : RangesOk (split m S.flatten).2.length at_ ranges)
    (hst : ∀ r ∈ ranges, StartOk m S r.1) :
    ∃ is, scheduleAll (blocksOf m S 0) ranges = some is ∧ (ranges ≠ [] → is ≠ []) ∧
      (den m S is).2 = selected (split m S.flatten).2 ranges ∧ WFI m S false is ∧
      (∀ i ∈ is, ∀ k, k < S.length → rowsBefore m S k ≤ at_ → k ≤ i.chunk) ∧
      (is.map Instr.chunk).Pairwise (· ≤ ·) := by
  induction ranges generalizing at_ with
  | nil => exact ⟨[], rfl, by simp, rfl, rfl, by simp, by simp⟩
  | cons r rest ih =>
    obtain ⟨s, e⟩ := r
    obtain ⟨h1, h2, h3, h4⟩ := hr
    obtain ⟨as, has, hane, haden, hawf, hack, hapw⟩ := scheduleRange_ok m S hNE hsmall s e h2 h3
      (hst (s, e) List.mem_cons_self)
    obtain ⟨bs, hbs, _, hbden, hbwf, hbck, hbpw⟩ := ih e h4 (fun r hr => hst r (List.mem_cons_of_mem _ hr))
    refine ⟨as ++ bs, by simp [scheduleAll, has, hbs], by simp [hane], ?_, WFI_append m S false as bs hawf hbwf hane, ?_, ?_⟩
    · rw [den_trailer_last m S false as bs hawf hane, haden, hbden]
      rfl
    · intro i hi k hk hle
      rcases List.mem_append.mp hi with hi | hi
      · exact (hack i hi).2 k hk (by omega)
      · exact hbck i hi k hk (by omega)
    · rw [List.map_append, List.pairwise_append]
      refine ⟨hapw.imp (fun h => Nat.le_of_lt h), hbpw, ?_⟩
      intro a ha b hb
      obtain ⟨x, hx, rfl⟩ := List.mem_map.mp ha
      obtain ⟨y, hy, rfl⟩ := List.mem_map.mp hb
      exact hbck y hy x.chunk (WFI_chunk m S false as hawf x hx) (hack x hx).1

theorem mergeLoop_ok (m : Nat) (S : List (List (Slot V)))
    (hsmall : ∀ k, (rowsAt m S k).length < 2 ^ 64) (rest : List Instr) (last : Instr) (need : Bool)
    (h : WFI m S need (last :: rest)) :
    WFI m S need (mergeLoop last rest) ∧ den m S (mergeLoop last rest) = den m S (last :: rest) ∧
      ((mergeLoop last rest).map Instr.chunk).Sublist ((last :: rest).map Instr.chunk) ∧
      (mergeLoop last rest).head?.map Instr.chunk = some last.chunk := by
  induction rest generalizing last need with
  | nil => exact ⟨h, rfl, List.Sublist.refl _, rfl⟩
  | cons i rest ih =>
    rw [mergeLoop]
    by_cases hm : last.chunk = i.chunk ∧ last.take + last.skip = i.skip
    · rw [if_pos hm]
      obtain ⟨hc, hsk⟩ := hm
      obtain ⟨a1, a2, a3, a4, a5, a6, a7, a8⟩ := h
      have htr : last.trailer = false := by
        cases ht : last.trailer with
        | false => rfl
        | true =>
          have := (a7 ht).2
          simp at this
          omega
      rw [htr] at a8
      obtain ⟨b1, b2, b3, b4, b5, b6, b7, b8⟩ := a8
      have hcl : cnt last = last.take := by simp [cnt, htr]
      have hbt := b1 rfl
      have hci : cnt i ≠ 0 := by
        intro h0
        apply hbt
        simp [taken, h0]
      have hsm := hsmall i.chunk
      have hcnew : cnt ⟨last.chunk, last.preamble, last.skip, last.take + i.take, last.trailer || i.trailer⟩
          = last.take + cnt i := by
        simp only [cnt, htr, Bool.false_or]
        simp only [cnt] at hci b5
        cases hit : i.trailer with
        | false => simp
        | true =>
          rw [hit] at hci b5
          simp only [if_true] at hci b5 ⊢
          unfold wadd at hci b5 ⊢
          omega
      have htaken : taken m S ⟨last.chunk, last.preamble, last.skip, last.take + i.take, last.trailer || i.trailer⟩
          = taken m S last ++ taken m S i := by
        simp only [taken]
        rw [hcnew, hcl, List.take_add, List.drop_drop, ← hc, ← hsk]
        rw [Nat.add_comm last.skip last.take]
      have hnew : WFI m S need (⟨last.chunk, last.preamble, last.skip, last.take + i.take,
          last.trailer || i.trailer⟩ :: rest) := by
        refine ⟨?_, a2, a3, a4, ?_, ?_, ?_, ?_⟩
        · intro _ h0
          rw [htaken] at h0
          exact hbt (List.append_eq_nil_iff.mp h0).2
        · rw [hcnew]; simp only [hc]; omega
        · simp only
          simp only [cnt] at b5 hci
          cases hit : i.trailer with
          | false =>
            rw [hit] at b5
            simp only [Bool.false_eq_true, if_false] at b5
            omega
          | true =>
            rw [hit] at b5 hci
            simp only [if_true] at b5 hci
            unfold wadd at b5 hci
            omega
        · intro ht
          simp only [htr, Bool.false_or] at ht
          rw [hcnew]
          simp only [hc]
          refine ⟨?_, (b7 ht).2⟩
          have := (b7 ht).1
          omega
        · simp only [htr, Bool.false_or]; exact b8
      obtain ⟨c1, c2, c3, c4⟩ := ih _ need hnew
      refine ⟨c1, ?_, ?_, c4⟩
      · rw [c2]
        simp only [den]
        rw [htaken]
        simp only [htr, Bool.false_or, Bool.false_eq_true, if_false]
        cases hit : i.trailer with
        | false => simp
        | true =>
          simp only [if_true, glue]
          rw [if_neg (by simp [hbt]), if_neg hbt]
          simp only
          rw [extendLast_append _ _ _ hbt, List.append_assoc]
      · exact c3.trans (by
          simp only [List.map_cons]
          exact List.Sublist.cons_cons _ (List.sublist_cons_self _ _))
    · rw [if_neg hm]
      obtain ⟨a1, a2, a3, a4, a5, a6, a7, a8⟩ := h
      obtain ⟨c1, c2, c3, c4⟩ := ih i last.trailer a8
      refine ⟨⟨a1, a2, a3, a4, a5, a6, ?_, c1⟩, ?_, ?_, rfl⟩
      · intro ht
        refine ⟨(a7 ht).1, ?_⟩
        rw [c4]
        simpa using (a7 ht).2
      · rw [den, c2]; rfl
      · rw [List.map_cons, List.map_cons]
        exact List.Sublist.cons_cons _ c3

theorem schedule_ok (m : Nat) (S : List (List (Slot V))) (hNE : NE S)
    (hsmall : ∀ k, (rowsAt m S k).length < 2 ^ 64) (ranges : List (Nat × Nat))
    (hr : RangesOk (split m S.flatten).2.length 0 ranges) (hst : ∀ r ∈ ranges, StartOk m S r.1) :
    ∃ is, schedule (blocksOf m S 0) ranges = some is ∧
      (den m S is).2 = selected (split m S.flatten).2 ranges ∧ WFI m S false is ∧
      (is.map Instr.chunk).Pairwise (· ≤ ·) := by
  obtain ⟨is, his, hne, hden, hwf, _, hpw⟩ := scheduleAll_ok m S hNE hsmall ranges 0 hr hst
  unfold schedule
  rw [his]
  by_cases hl : 1 < ranges.length
  · cases is with
    | nil =>
      refine absurd rfl (hne ?_)
      intro hc; subst hc; simp at hl
    | cons i rest =>
      simp only [hl, if_true]
      obtain ⟨c1, c2, c3, _⟩ := mergeLoop_ok m S hsmall rest i false hwf
      exact ⟨_, rfl, by rw [c2, hden], c1, hpw.sublist c3⟩
  · simp only [hl, if_false]
    exact ⟨is, rfl, hden, hwf, hpw⟩

end Verif.Mini
