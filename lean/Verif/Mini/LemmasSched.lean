import Verif.Mini.LemmasSplit
/-!
# Mini-block pages: what scheduled instructions stand for
-/
namespace Verif.Mini

variable {V : Type}

theorem wadd_wsub_one (n : Nat) (h : n < 2 ^ 64) : wadd (wsub n 1) 1 = n := by
  unfold wadd wsub
  omega

theorem wsub_le (a b : Nat) (hb : b ≤ a) (ha : a < 2 ^ 64) : wsub a b = a - b := by
  unfold wsub
  omega

theorem wsub_lt (a b : Nat) : wsub a b < 2 ^ 64 := Nat.mod_lt _ (by omega)

/-- Whether the next slice starts inside a row. -/
def nextPre (m : Nat) : List (List (Slot V)) → Bool
  | [] => false
  | t :: _ => !(split m t).1.isEmpty

/-- The blocks that describe slices of slots. -/
def blocksOf (m : Nat) : List (List (Slot V)) → Nat → List Block
  | [], _ => []
  | s :: ss, off =>
    ⟨off, (split m s).2.length, !(split m s).1.isEmpty, nextPre m ss⟩
      :: blocksOf m ss (off + (split m s).2.length)

/-- All slices but the last hold something. -/
def NE : List (List (Slot V)) → Prop
  | [] => True
  | [_] => True
  | s :: t :: rest => s ≠ [] ∧ NE (t :: rest)

theorem NE_tail {s : List (Slot V)} {ss : List (List (Slot V))} (h : NE (s :: ss)) : NE ss := by
  cases ss with
  | nil => trivial
  | cons t rest => exact h.2

/-- The rows an instruction takes, counting the trailer. -/
def cnt (i : Instr) : Nat := if i.trailer then wadd i.take 1 else i.take

def slotsAt (S : List (List (Slot V))) (k : Nat) : List (Slot V) := S.getD k []

def preAt (m : Nat) (S : List (List (Slot V))) (k : Nat) : List (Slot V) := (split m (slotsAt S k)).1
def rowsAt (m : Nat) (S : List (List (Slot V))) (k : Nat) : List (List (Slot V)) := (split m (slotsAt S k)).2

/-- The (parts of) rows that an instruction takes. -/
def taken (m : Nat) (S : List (List (Slot V))) (i : Instr) : List (List (Slot V)) :=
  ((rowsAt m S i.chunk).drop i.skip).take (cnt i)

/-- What a list of instructions stands for: the end of a row begun before, and rows. -/
def den (m : Nat) (S : List (List (Slot V))) : List Instr → List (Slot V) × List (List (Slot V))
  | [] => ([], [])
  | i :: rest =>
    if i.trailer then glue (preAt m S i.chunk, taken m S i) (den m S rest)
    else (preAt m S i.chunk, taken m S i ++ (den m S rest).2)

/-- Instructions as the scheduler makes them; `need`: the first one finishes a row. -/
def WFI (m : Nat) (S : List (List (Slot V))) : Bool → List Instr → Prop
  | need, [] => need = false
  | need, i :: rest =>
    (need = false → taken m S i ≠ []) ∧ (need = true → i.skip = 0 ∧ i.preamble ≠ .absent) ∧
    (i.preamble = .absent ↔ preAt m S i.chunk = []) ∧ i.chunk < S.length ∧
    i.skip + cnt i ≤ (rowsAt m S i.chunk).length ∧ i.take < 2 ^ 64 ∧
    (i.trailer = true → i.skip + cnt i = (rowsAt m S i.chunk).length ∧
      (rest.head?.map Instr.chunk) = some (i.chunk + 1)) ∧
    WFI m S i.trailer rest

theorem den_trailer_last (m : Nat) (S : List (List (Slot V))) (need : Bool) (as bs : List Instr)
    (ha : WFI m S need as) (hne : as ≠ []) :
    den m S (as ++ bs) = ((den m S as).1, (den m S as).2 ++ (den m S bs).2) := by
  induction as generalizing need with
  | nil => exact absurd rfl hne
  | cons i rest ih =>
    obtain ⟨_, _, _, _, _, _, htr, hrest⟩ := ha
    by_cases hr : rest = []
    · subst hr
      have : i.trailer = false := hrest
      simp [den, this]
    · have h := ih _ hrest hr
      simp only [List.cons_append, den]
      rw [h]
      by_cases ht : i.trailer = true
      · simp only [ht, if_true, glue]
        by_cases htk : taken m S i = []
        · simp [htk]
        · simp [htk]
      · simp [ht]

theorem WFI_append (m : Nat) (S : List (List (Slot V))) (need : Bool) (as bs : List Instr)
    (ha : WFI m S need as) (hb : WFI m S false bs) (hne : as ≠ []) : WFI m S need (as ++ bs) := by
  induction as generalizing need with
  | nil => exact absurd rfl hne
  | cons i rest ih =>
    obtain ⟨h1, h2, h3, h3', h4, h5, htr, hrest⟩ := ha
    by_cases hr : rest = []
    · subst hr
      have ht : i.trailer = false := hrest
      refine ⟨h1, h2, h3, h3', h4, h5, ?_, ?_⟩
      · intro h; rw [ht] at h; exact absurd h (by simp)
      · rw [ht]; exact hb
    · refine ⟨h1, h2, h3, h3', h4, h5, ?_, ?_⟩
      · intro h
        refine ⟨(htr h).1, ?_⟩
        have := (htr h).2
        cases rest with
        | nil => exact absurd rfl hr
        | cons j js => simpa using this
      · exact ih _ hrest hr

theorem slotsAt_drop (S ss : List (List (Slot V))) (s : List (Slot V)) (idx : Nat)
    (h : S.drop idx = s :: ss) : slotsAt S idx = s ∧ S.drop (idx + 1) = ss ∧ idx < S.length := by
  have hlt : idx < S.length := by
    apply Classical.byContradiction
    intro hc
    rw [List.drop_eq_nil_of_le (by omega)] at h
    exact absurd h (by simp)
  rw [List.drop_eq_getElem_cons hlt] at h
  injection h with h1 h2
  refine ⟨?_, h2, hlt⟩
  simp [slotsAt, List.getD, hlt, h1]

/-- Every instruction is of one of the blocks from `idx` on, whose first row is not after `bound`. -/
def ChunksOk (m : Nat) (S : List (List (Slot V))) (lo bound : Nat) (is : List Instr) : Prop :=
  (∀ i ∈ is, lo ≤ i.chunk ∧ (split m (S.take i.chunk).flatten).2.length ≤ bound) ∧
  (is.map Instr.chunk).Pairwise (· < ·)

theorem flatten_take_succ (S : List (List (Slot V))) (idx : Nat) (h : idx < S.length) :
    (S.take (idx + 1)).flatten = (S.take idx).flatten ++ slotsAt S idx := by
  rw [List.take_add_one, List.flatten_append]
  simp [slotsAt, List.getD, h]

theorem scheduleLoop_ok (m : Nat) (S : List (List (Slot V))) (bound : Nat)
    (hsmall : ∀ k, (rowsAt m S k).length < 2 ^ 64) (ss : List (List (Slot V))) :
    ∀ (idx off needed : Nat) (need : Bool) (skip : Nat),
      S.drop idx = ss → NE ss →
      (need = true → skip = 0 ∧ nextPre m ss = true) →
      (need = false → needed = 0 ∨ skip < (rowsAt m S idx).length) →
      needed + skip ≤ (split m ss.flatten).2.length →
      (split m (S.take idx).flatten).2.length + skip + needed = bound →
      ∃ is, scheduleLoop (blocksOf m ss off) idx needed need skip = some is ∧
        (den m S is).2 = ((split m ss.flatten).2.drop skip).take needed ∧
        (need = true → (den m S is).1 = (split m ss.flatten).1) ∧ WFI m S need is ∧
        ChunksOk m S idx bound is ∧ ((needed ≠ 0 ∨ need = true) → is ≠ [] ∧ is.head?.map Instr.chunk = some idx) := by
  induction ss with
  | nil =>
    intro idx off needed need skip _ _ hneed _ hle hb
    have hn : need = false := by
      cases need with
      | false => rfl
      | true => exact absurd (hneed rfl).2 (by simp [nextPre])
    have h0 : needed = 0 := by simp [split] at hle; omega
    subst hn; subst h0
    exact ⟨[], by simp [scheduleLoop, blocksOf], by simp [den], by simp, rfl, ⟨by simp, by simp⟩, by simp⟩
  | cons s ss ih =>
    intro idx off needed need skip hdrop hNE hneed hskip hle hb
    by_cases hdone : needed = 0 ∧ need = false
    · obtain ⟨h0, hn⟩ := hdone
      subst hn; subst h0
      exact ⟨[], by simp [scheduleLoop, blocksOf], by simp [den], by simp, rfl, ⟨by simp, by simp⟩, by simp⟩
    obtain ⟨hat, hdrop', hidx⟩ := slotsAt_drop S ss s idx hdrop
    have hrows : rowsAt m S idx = (split m s).2 := by rw [rowsAt, hat]
    have hpre : preAt m S idx = (split m s).1 := by rw [preAt, hat]
    have hsk : skip ≤ (split m s).2.length := by
      cases need with
      | true => have := (hneed rfl).1; omega
      | false =>
        rcases hskip rfl with h | h
        · exact absurd ⟨h, rfl⟩ hdone
        · rw [hrows] at h; omega
    have hlen := split_length_append m s ss.flatten
    rw [List.flatten_cons] at hle
    have hcut : (split m (s ++ ss.flatten)) = glue (split m s) (split m ss.flatten) := split_append m s ss.flatten
    have hsm := hsmall idx
    rw [hrows] at hsm
    have htakeS : (split m (S.take (idx + 1)).flatten).2.length
        = (split m (S.take idx).flatten).2.length + (split m s).2.length := by
      rw [flatten_take_succ S idx hidx, split_length_append, hat]
    -- the block's numbers
    generalize hav : (split m s).2.length - skip = avail at *
    have hbool : (decide (min avail needed = avail) && nextPre m ss)
        = (decide (avail ≤ needed) && nextPre m ss) := by
      congr 1
      by_cases h : avail ≤ needed
      · simp [h]
      · simp [h]; omega
    have hpreamble : ((if (!(split m s).1.isEmpty) = true then (if need = true then Preamble.take else .skip)
        else .absent) = Preamble.absent) ↔ preAt m S idx = [] := by
      rw [hpre]
      cases h : (split m s).1 with
      | nil => simp
      | cons a l => cases need <;> simp
    have hneedpre : need = true → preAt m S idx ≠ [] := by
      intro h
      have := (hneed h).2
      simp only [nextPre] at this
      rw [hpre]
      intro hc
      rw [hc] at this
      simp at this
    have unfold_eq : scheduleLoop (blocksOf m (s :: ss) off) idx needed need skip =
        match scheduleLoop (blocksOf m ss (off + (split m s).2.length)) (idx + 1)
          (needed - min avail needed) (decide (avail ≤ needed) && nextPre m ss) 0 with
        | none => none
        | some is => some (⟨idx, (if (!(split m s).1.isEmpty) = true then
            (if need = true then Preamble.take else .skip) else .absent), skip,
            (if (decide (avail ≤ needed) && nextPre m ss) = true then wsub (min avail needed) 1
              else min avail needed), (decide (avail ≤ needed) && nextPre m ss)⟩ :: is) := by
      rw [blocksOf, scheduleLoop, if_neg hdone]
      simp only
      rw [if_neg (by omega), hav, hbool]
      rfl
    rw [unfold_eq]
    by_cases hfull : avail ≤ needed
    · have hmin : min avail needed = avail := by omega
      rw [hmin]
      simp only [hfull, decide_true, Bool.true_and]
      cases htr : nextPre m ss with
      | true =>
        -- the row goes on in the next chunk
        obtain ⟨is, his, hden, hden1, hwf, hck, hne⟩ := ih (idx + 1) (off + (split m s).2.length)
          (needed - avail) true 0 hdrop' (NE_tail hNE) (fun _ => ⟨rfl, htr⟩) (by simp)
          (by omega) (by omega)
        obtain ⟨hne1, hhead⟩ := hne (Or.inr rfl)
        rw [his]
        simp only [if_true]
        have hcnt : cnt ⟨idx, (if (!(split m s).1.isEmpty) = true then
            (if need = true then Preamble.take else .skip) else .absent), skip, wsub avail 1, true⟩ = avail := by
          simp [cnt, wadd_wsub_one avail (by omega)]
        refine ⟨_, rfl, ?_, ?_, ?_, ?_, ?_⟩
        · simp only [den, if_true, taken]
          rw [hcnt]
          simp only [hrows, hpre]
          rw [List.take_of_length_le (by rw [List.length_drop]; omega), List.flatten_cons, hcut]
          simp only [glue]
          by_cases hs2 : (split m s).2 = []
          · have : skip = 0 := by rw [hs2] at hsk; simpa using hsk
            have h0 : avail = 0 := by rw [hs2] at hav; simp at hav; omega
            simp only [hs2, List.drop_nil, if_true, hden, this, List.drop_zero]
            rw [h0, Nat.sub_zero]
          · rw [if_neg hs2]
            have hd : (split m s).2.drop skip ≠ [] := by
              intro hc
              rw [List.drop_eq_nil_iff] at hc
              cases need with
              | true =>
                have := (hneed rfl).1
                rw [this] at hc
                exact hs2 (List.length_eq_zero_iff.mp (by omega))
              | false =>
                rcases hskip rfl with h | h
                · exact absurd ⟨h, rfl⟩ hdone
                · rw [hrows] at h; omega
            rw [if_neg hd]
            simp only [hden, List.drop_zero, hden1 rfl]
            rw [List.drop_append, extendLast_length, extendLast_drop]
            have : skip - (split m s).2.length = 0 := by omega
            rw [this, List.drop_zero, List.take_append, extendLast_length, List.length_drop, hav,
              List.take_of_length_le (l := extendLast _ _) (by rw [extendLast_length, List.length_drop]; omega)]
        · intro hn
          simp only [den, if_true, taken]
          rw [hcnt]
          simp only [hrows, hpre]
          rw [List.take_of_length_le (by rw [List.length_drop]; omega), List.flatten_cons, hcut]
          have hs0 : skip = 0 := (hneed hn).1
          simp only [glue, hs0, List.drop_zero, hden1 rfl]
          by_cases hs2 : (split m s).2 = [] <;> simp [hs2]
        · refine ⟨?_, ?_, ?_, hidx, ?_, ?_, ?_, ?_⟩
          · intro hn
            simp only [taken]
            rw [hcnt, hrows]
            rcases hskip hn with h | h
            · exact absurd ⟨h, hn⟩ hdone
            · rw [hrows] at h
              rw [List.take_of_length_le (by rw [List.length_drop]; omega)]
              intro hc
              rw [List.drop_eq_nil_iff] at hc
              omega
          · intro hn
            exact ⟨(hneed hn).1, fun hc => hneedpre hn (hpreamble.mp hc)⟩
          · exact hpreamble
          · rw [hcnt, hrows]; simp only; omega
          · exact wsub_lt _ _
          · intro _
            rw [hcnt, hrows]
            exact ⟨by simp only; omega, hhead⟩
          · exact hwf
        · refine ⟨?_, ?_⟩
          · intro i hi
            rcases List.mem_cons.mp hi with rfl | hi
            · exact ⟨Nat.le_refl _, by simp only; omega⟩
            · have := hck.1 i hi
              exact ⟨by omega, this.2⟩
          · simp only [List.map_cons, List.pairwise_cons]
            refine ⟨?_, hck.2⟩
            intro a ha
            obtain ⟨i, hi, rfl⟩ := List.mem_map.mp ha
            have := (hck.1 i hi).1
            omega
        · intro _; exact ⟨by simp, by simp⟩
      | false =>
        -- the rows of this chunk end with it
        have hP : needed - avail ≠ 0 → (split m ss.flatten).1 = [] ∧ (rowsAt m S (idx + 1)).length ≠ 0 := by
          intro hpos
          cases ss with
          | nil => simp [split] at hlen hle; omega
          | cons t rest =>
            have hp : (split m t).1 = [] := by
              simp only [nextPre] at htr
              cases h : (split m t).1 with
              | nil => rfl
              | cons a l => rw [h] at htr; simp at htr
            have ht : t ≠ [] := by
              intro hc
              subst hc
              cases rest with
              | nil => simp [split] at hlen hle; omega
              | cons u us => exact hNE.2.1 rfl
            have hr := split_rows_ne m t ht hp
            refine ⟨?_, ?_⟩
            · rw [List.flatten_cons, split_append]
              simp [glue, hr, hp]
            · obtain ⟨hat', _, _⟩ := slotsAt_drop S rest t (idx + 1) hdrop'
              rw [rowsAt, hat']
              intro hc
              exact hr (List.length_eq_zero_iff.mp hc)
        obtain ⟨is, his, hden, hden1, hwf, hck, hne⟩ := ih (idx + 1) (off + (split m s).2.length)
          (needed - avail) false 0 hdrop' (NE_tail hNE) (by simp)
          (fun _ => by
            by_cases h0 : needed - avail = 0
            · exact Or.inl h0
            · exact Or.inr (Nat.pos_of_ne_zero (hP h0).2))
          (by omega) (by omega)
        rw [his]
        refine ⟨_, rfl, ?_, ?_, ?_, ?_, ?_⟩
        · simp only [den, Bool.false_eq_true, if_false, taken, cnt]
          simp only [hrows]
          rw [List.take_of_length_le (by rw [List.length_drop]; omega), List.flatten_cons, hcut, hden,
            List.drop_zero]
          simp only [glue]
          by_cases h0 : needed - avail = 0
          · rw [h0, List.take_zero, List.append_nil]
            by_cases hs2 : (split m s).2 = []
            · have : avail = 0 := by rw [hs2] at hav; simp at hav; omega
              have hn0 : needed = 0 := by omega
              rw [if_pos hs2, hs2, hn0]; simp
            · rw [if_neg hs2, List.drop_append, extendLast_length, extendLast_drop]
              have h1 : skip - (split m s).2.length = 0 := by omega
              rw [h1, List.drop_zero, List.take_append, extendLast_length, List.length_drop, hav, h0,
                List.take_zero, List.append_nil,
                List.take_of_length_le (l := extendLast _ _) (by rw [extendLast_length, List.length_drop]; omega)]
              have hP1 : (split m ss.flatten).1 = [] := by
                cases ss with
                | nil => rfl
                | cons t rest =>
                  have hp : (split m t).1 = [] := by
                    simp only [nextPre] at htr
                    cases h : (split m t).1 with
                    | nil => rfl
                    | cons a l => rw [h] at htr; simp at htr
                  by_cases ht : t = []
                  · subst ht
                    cases rest with
                    | nil => rfl
                    | cons u us => exact absurd rfl hNE.2.1
                  · have hr := split_rows_ne m t ht hp
                    rw [List.flatten_cons, split_append]
                    simp [glue, hr, hp]
              rw [hP1, extendLast_nil]
          · have hp := (hP h0).1
            by_cases hs2 : (split m s).2 = []
            · have h1 : avail = 0 := by rw [hs2] at hav; simp at hav; omega
              have h2 : skip = 0 := by rw [hs2] at hsk; simpa using hsk
              rw [if_pos hs2, hs2, h1, h2]; simp
            · rw [if_neg hs2, hp, extendLast_nil, List.drop_append]
              have h1 : skip - (split m s).2.length = 0 := by omega
              rw [h1, List.drop_zero, List.take_append, List.length_drop, hav,
                List.take_of_length_le (l := (split m s).2.drop skip) (by rw [List.length_drop]; omega)]
        · intro hn
          have hP1 : (split m ss.flatten).1 = [] := by
            cases ss with
            | nil => rfl
            | cons t rest =>
              have hp : (split m t).1 = [] := by
                simp only [nextPre] at htr
                cases h : (split m t).1 with
                | nil => rfl
                | cons a l => rw [h] at htr; simp at htr
              by_cases ht : t = []
              · subst ht
                cases rest with
                | nil => rfl
                | cons u us => exact absurd rfl hNE.2.1
              · have hr := split_rows_ne m t ht hp
                rw [List.flatten_cons, split_append]
                simp [glue, hr, hp]
          simp only [den, Bool.false_eq_true, if_false]
          rw [hpre, List.flatten_cons, hcut]
          simp only [glue]
          by_cases hs2 : (split m s).2 = [] <;> simp [hs2, hP1]
        · refine ⟨?_, ?_, ?_, hidx, ?_, ?_, ?_, ?_⟩
          · intro hn
            simp only [taken, cnt, Bool.false_eq_true, if_false]
            rw [hrows]
            rcases hskip hn with h | h
            · exact absurd ⟨h, hn⟩ hdone
            · rw [hrows] at h
              rw [List.take_of_length_le (by rw [List.length_drop]; omega)]
              intro hc
              rw [List.drop_eq_nil_iff] at hc
              omega
          · intro hn
            exact ⟨(hneed hn).1, fun hc => hneedpre hn (hpreamble.mp hc)⟩
          · exact hpreamble
          · simp only [cnt, Bool.false_eq_true, if_false]; rw [hrows]; omega
          · simp only [Bool.false_eq_true, if_false]; omega
          · simp
          · exact hwf
        · refine ⟨?_, ?_⟩
          · intro i hi
            rcases List.mem_cons.mp hi with rfl | hi
            · exact ⟨Nat.le_refl _, by simp only; omega⟩
            · have := hck.1 i hi
              exact ⟨by omega, this.2⟩
          · simp only [List.map_cons, List.pairwise_cons]
            refine ⟨?_, hck.2⟩
            intro a ha
            obtain ⟨i, hi, rfl⟩ := List.mem_map.mp ha
            have := (hck.1 i hi).1
            omega
        · intro _; exact ⟨by simp, by simp⟩
    · -- part of the chunk is enough
      have hmin : min avail needed = needed := by omega
      rw [hmin]
      simp only [hfull, decide_false, Bool.false_and, Nat.sub_self, Bool.false_eq_true, if_false]
      have h0 : scheduleLoop (blocksOf m ss (off + (split m s).2.length)) (idx + 1) 0 false 0 = some [] := by
        rw [scheduleLoop.eq_def]; simp
      rw [h0]
      have hs2 : (split m s).2 ≠ [] := by
        intro hc; rw [hc] at hav; simp at hav; omega
      refine ⟨_, rfl, ?_, ?_, ?_, ?_, ?_⟩
      · simp only [den, Bool.false_eq_true, if_false, taken, cnt, List.append_nil]
        rw [hrows, List.flatten_cons, hcut]
        simp only [glue]
        rw [if_neg hs2, List.drop_append, extendLast_length, extendLast_drop]
        have h1 : skip - (split m s).2.length = 0 := by omega
        rw [h1, List.drop_zero, List.take_append, extendLast_length, List.length_drop, hav]
        have h2 : needed - avail = 0 := by omega
        rw [h2, List.take_zero, List.append_nil, extendLast_take _ _ _ (by rw [List.length_drop]; omega)]
      · intro hn
        simp only [den, Bool.false_eq_true, if_false]
        rw [hpre, List.flatten_cons, hcut]
        simp [glue, hs2]
      · refine ⟨?_, ?_, ?_, hidx, ?_, ?_, ?_, rfl⟩
        · intro hn
          simp only [taken, cnt, Bool.false_eq_true, if_false]
          rw [hrows]
          intro hc
          have := congrArg List.length hc
          rw [List.length_take, List.length_drop] at this
          simp only [List.length_nil] at this
          have hn0 : needed ≠ 0 := fun h => hdone ⟨h, hn⟩
          omega
        · intro hn
          exact ⟨(hneed hn).1, fun hc => hneedpre hn (hpreamble.mp hc)⟩
        · exact hpreamble
        · simp only [cnt, Bool.false_eq_true, if_false]; rw [hrows]; omega
        · simp only; omega
        · simp
      · refine ⟨?_, by simp⟩
        intro i hi
        rcases List.mem_cons.mp hi with rfl | hi
        · exact ⟨Nat.le_refl _, by simp only; omega⟩
        · simp at hi
      · intro _; exact ⟨by simp, by simp⟩

end Verif.Mini
