import Verif.Shared.Lemmas
/-!
# C119: both readers of a shared stream get every item, and none waits for nothing
-/
namespace Verif.Shared

variable {α : Type}

/-- The states that a shared stream can be in, if only events happen that `ok` allows. -/
inductive Reach (ok : St α → Event → Prop) (cap : Option Nat) (items : List α) : St α → Prop
  | init : Reach ok cap items (init cap items)
  | step (st st' : St α) (e : Event) : Reach ok cap items st → ok st e → step st e = some st' → Reach ok cap items st'

/-- Nothing is dropped. -/
def Kept (_ : St α) (e : Event) : Prop := ∀ s, e ≠ .drop s

/-- Nothing is dropped, and polls do not overlap: both halves are polled by one task, as `join!` does (`rust/lance/src/dataset/write.rs` 421). -/
def OneTask (st : St α) (e : Event) : Prop := (∀ s, e ≠ .drop s) ∧ ∀ s, e = .start s → ∀ t, st.task t ≠ .flying

/-- A reader that sleeps has every item that the inner stream gave, and it will be woken: by the inner stream, or by the other reader, which is awake or will be woken by the inner stream. -/
def Waits (items : List α) (st : St α) (s : Side) : Prop :=
  items = st.out s ++ st.rest ∧
    (st.innerWaker = some s ∨ st.task s.other = .awake ∨ st.task s.other = .flying ∨ (st.task s.other = .asleep ∧ st.innerWaker = some s.other))

/-- **The full claim**: for every schedule, the readers get the items in order, all of them before the end, and none waits for nothing. -/
def C119_statement : Prop :=
  ∀ (cap : Option Nat) (items : List Nat) (st : St Nat), cap ≠ some 0 → Reach (fun _ _ => True) cap items st →
    (∀ s, (∃ tail, items = st.out s ++ tail) ∧ (st.ended s = true → st.out s = items)) ∧ ∀ s, st.task s = .asleep → Waits items st s

/-! ## Safety, for every schedule, with drops -/

theorem reach_inv (ok : St α → Event → Prop) (cap : Option Nat) (items : List α) (st : St α) (h : Reach ok cap items st) : Inv 0 cap items st := by
  induction h with
  | init => exact inv_init cap items
  | step st st' e _ _ hs ih => exact inv_step cap items st st' e ih hs

/-- **Each reader gets the items in order; one that was told the end has them all; nothing panics.** -/
theorem C119_items (ok : St α → Event → Prop) (cap : Option Nat) (items : List α) (st : St α) (h : Reach ok cap items st) :
    st.panicked = false ∧ ∀ s, (∃ tail, items = st.out s ++ tail) ∧ (st.ended s = true → st.out s = items) := by
  have hi := reach_inv ok cap items st h
  refine ⟨hi.panicked, fun s => ?_⟩
  obtain ⟨done, h1, h2⟩ := hi.parts
  refine ⟨⟨(if st.buffered s = 0 then [] else st.buffer) ++ st.rest, ?_⟩, fun he => ?_⟩
  · rw [← List.append_assoc, h2 s]
    exact h1
  · obtain ⟨hx, hb⟩ := hi.ended s he
    have := h2 s
    rw [if_pos hb, List.append_nil] at this
    rw [h1, hi.exhausted hx, List.append_nil, this]

/-- **No reader is ahead of the other by more than the capacity.** -/
theorem C119_bounded (ok : St α → Event → Prop) (c : Nat) (items : List α) (st : St α) (h : Reach ok (some c) items st) (s : Side) :
    st.buffer.length ≤ c ∧ (st.out s).length ≤ (st.out s.other).length + c := by
  have hi := reach_inv ok (some c) items st h
  obtain ⟨n, _, h2⟩ := hi.permits c rfl
  have hlen : st.buffer.length ≤ c := by have := h2 s; omega
  refine ⟨hlen, ?_⟩
  obtain ⟨done, _, h3⟩ := hi.parts
  have e1 := congrArg List.length (h3 s)
  have e2 := congrArg List.length (h3 s.other)
  rw [List.length_append] at e1 e2
  have hle : (if st.buffered s.other = 0 then [] else st.buffer).length ≤ st.buffer.length := by split <;> simp
  omega

/-! ## No reader waits for nothing -/

/-- Why a reader sleeps: the other one polls and will wake it, or it waits for a permit while the other one has items to take, or the inner stream will wake it. -/
def LiveAt (st : St α) (t : Side) : Prop :=
  st.buffered t = 0 ∧ st.exhausted = false ∧
    ((st.polling = some t.other ∧ st.waker = some t) ∨ (st.queued = some (t, false) ∧ 0 < st.buffered t.other) ∨ (st.polling = some t ∧ st.innerWaker = some t))

/-- As `LiveAt`, before a permit is given back. -/
def LiveBefore (st : St α) (t : Side) : Prop :=
  st.buffered t = 0 ∧ st.exhausted = false ∧
    ((st.polling = some t.other ∧ st.waker = some t) ∨ (st.queued = some (t, false) ∧ st.permits.isSome) ∨ (st.polling = some t ∧ st.innerWaker = some t))

/-- Every reader that sleeps has a reason. -/
def Live (st : St α) : Prop := ∀ t, st.task t = .asleep → LiveAt st t

theorem asleep_wake (st : St α) (w t : Side) (h : (wake st w).task t = .asleep) : st.task t = .asleep ∧ t ≠ w := by
  rw [wake_task] at h
  split at h
  · exact nomatch h
  next hn => exact ⟨h, fun e => hn ⟨e, h⟩⟩

theorem live_wakeAll (st : St α) (w : Option Side) (h : ∀ t, st.task t = .asleep → w = some t ∨ LiveAt st t) : Live (wakeAll st w) := by
  cases w with
  | none =>
    intro t ht
    rcases h t ht with h' | h'
    · exact nomatch h'
    · exact h'
  | some w =>
    intro t ht
    obtain ⟨h1, h2⟩ := asleep_wake st w t ht
    rcases h t h1 with h' | h'
    · rw [Option.some.injEq] at h'
      exact absurd h'.symm h2
    · obtain ⟨a, b, c⟩ := h'
      have hs := wake_same st w
      show LiveAt (wake st w) t
      unfold LiveAt
      rw [hs.buffered, hs.exhausted, hs.polling, hs.waker, hs.innerWaker, (wake_permits st w).2]
      exact ⟨a, b, c⟩

theorem live_release (st : St α) (h : ∀ t, st.task t = .asleep → LiveBefore st t) : Live (release st) := by
  have hs := release_same st
  intro t ht
  unfold LiveAt
  rw [hs.buffered, hs.exhausted, hs.polling, hs.waker, hs.innerWaker]
  have key : st.task t = .asleep ∧ (st.queued = some (t, false) → st.permits.isSome → False) := by
    unfold release at ht
    split at ht
    next hp => exact ⟨ht, fun _ hx => by rw [hp] at hx; exact nomatch hx⟩
    next w hp hq =>
      obtain ⟨h1, h2⟩ := asleep_wake _ _ t ht
      refine ⟨h1, fun hx _ => ?_⟩
      rw [hq, Option.some.injEq, Prod.mk.injEq] at hx
      exact h2 hx.1.symm
    next n hp hn =>
      exact ⟨ht, fun hx _ => hn t hx⟩
  obtain ⟨a, b, c⟩ := h t key.1
  refine ⟨a, b, ?_⟩
  rcases c with c | c | c
  · exact Or.inl c
  · exact absurd c.2 (fun hx => key.2 c.1 hx)
  · exact Or.inr (Or.inr c)

theorem live_start (cap : Option Nat) (items : List α) (st : St α) (s : Side) (hi : Inv 0 cap items st) (hl : Live st) (hs : st.task s ≠ .flying)
    (h0 : cap ≠ some 0) (h1 : st.task s.other = .flying → cap ≠ some 1) : Live (start st s) := by
  have hoo : s.other.other = s := by cases s <;> rfl
  have before : ∀ t, LiveAt st t → LiveBefore st t := by
    intro t ⟨a, b, c⟩
    refine ⟨a, b, ?_⟩
    rcases c with c | c | c
    · exact Or.inl c
    · exact Or.inr (Or.inl ⟨c.1, by rw [hi.waiting t c.1]; rfl⟩)
    · exact Or.inr (Or.inr c)
  unfold start
  split
  next hb =>
    unfold popBuffer
    have hother : ∀ t, upd st.task s .awake t = .asleep → t = s.other ∧ LiveBefore st t := by
      intro t ht
      by_cases hts : t = s
      · subst hts; simp at ht
      · rw [upd_ne _ _ _ _ hts] at ht
        exact ⟨eq_other s t hts, before t (hl t ht)⟩
    split
    · apply live_release
      intro t ht
      obtain ⟨he, a, b, c⟩ := hother t ht
      subst he
      exact ⟨by simpa using a, b, c⟩
    · apply live_release
      intro t ht
      obtain ⟨he, a, b, c⟩ := hother t ht
      subst he
      exact ⟨by simpa using a, b, c⟩
  next hb =>
    have hb0 : st.buffered s = 0 := Nat.eq_zero_of_not_pos hb
    split
    next hx =>
      intro t ht
      by_cases hts : t = s
      · subst hts; simp at ht
      · simp only [upd_ne _ _ _ _ hts] at ht
        have := (hl t ht).2.1
        rw [hx] at this
        exact nomatch this
    next hx =>
      have hx' : st.exhausted = false := by simpa using hx
      -- the other one does not wait for a permit, for there is nothing for this one to take
      have hoth : ∀ t, t ≠ s → st.task t = .asleep → (st.polling = some s ∧ st.waker = some t) ∨ (st.polling = some t ∧ st.innerWaker = some t) := by
        intro t hts ht
        have he := eq_other s t hts
        subst he
        obtain ⟨_, _, c⟩ := hl _ ht
        rw [hoo] at c
        rcases c with c | c | c
        · exact Or.inl c
        · rw [hb0] at c; exact absurd c.2 (by omega)
        · exact Or.inr c
      unfold pollMore
      obtain ⟨hsame, hsame2, htask2⟩ := acquire_same st s
      cases ha : acquire st s with
      | mk o st2 =>
        cases o with
        | none =>
          obtain ⟨e1, e2, e3, _⟩ := inv_blocked cap items st s hi (by rw [ha])
          rw [ha] at e1
          simp only at e1 ⊢
          subst e1
          intro t ht
          have hpos : 0 < st.buffered s.other := by
            cases hc : cap with
            | none => have := hi.unbounded hc; rw [e2] at this; exact nomatch this
            | some c =>
              obtain ⟨n, hn, hsum⟩ := hi.permits c hc
              rw [e2, Option.some.injEq] at hn
              have hsum := hsum s
              rw [hi.total s, hb0, e3, ← hn] at hsum
              have hself : flag (st.task s) = 0 := by simp [flag, hs]
              by_cases hf : st.task s.other = .flying
              · have hz := (hi.flying s.other hf).1
                have : fl st s = 1 := by simp only [fl, hself, hf]; rfl
                have hone : c = 1 := by omega
                exact absurd (by rw [hc, hone]) (h1 hf)
              · have : fl st s = 0 := by simp [fl, flag, hs, hf]
                have : c ≠ 0 := fun hz => h0 (by rw [hc, hz])
                omega
          by_cases hts : t = s
          · subst hts
            exact ⟨hb0, hx', Or.inr (Or.inl ⟨rfl, hpos⟩)⟩
          · simp only [upd_ne _ _ _ _ hts] at ht
            have := (hl t ht).1
            rw [eq_other s t hts] at this
            omega
        | some st' =>
          obtain ⟨hsm, htk⟩ := hsame st' (by rw [ha])
          have hi' := inv_acquire cap items st st' s hi (by rw [ha])
          simp only
          split
          next hp =>
            apply live_release
            intro t ht
            by_cases hts : t = s
            · subst hts
              exact ⟨by show st'.buffered t = 0; rw [hsm.buffered]; exact hb0, by show st'.exhausted = false; rw [hsm.exhausted]; exact hx', Or.inl ⟨hp, rfl⟩⟩
            · simp only [upd_ne _ _ _ _ hts] at ht
              rw [htk] at ht
              obtain ⟨a, b, _⟩ := hl t ht
              refine ⟨by show st'.buffered t = 0; rw [hsm.buffered]; exact a, by show st'.exhausted = false; rw [hsm.exhausted]; exact b, ?_⟩
              rcases hoth t hts ht with c | c
              · rw [hsm.polling, c.1, Option.some.injEq] at hp
                exact absurd hp.symm (other_ne s)
              · exact Or.inr (Or.inr ⟨by show st'.polling = some t; rw [hsm.polling]; exact c.1, by show st'.innerWaker = some t; rw [hsm.innerWaker]; exact c.2⟩)
          next hp =>
            rw [(inv_takeInner cap items st' s hi' (by rw [htk]; exact hs) (by rw [hsm.buffered]; exact hb0) (by rw [hsm.exhausted]; exact hx') hp).2]
            intro t ht
            by_cases hts : t = s
            · subst hts; simp at ht
            · simp only [upd_ne _ _ _ _ hts] at ht
              rw [htk] at ht
              obtain ⟨a, b, _⟩ := hl t ht
              refine ⟨by show st'.buffered t = 0; rw [hsm.buffered]; exact a, by show st'.exhausted = false; rw [hsm.exhausted]; exact b, ?_⟩
              rcases hoth t hts ht with c | c
              · refine Or.inl ⟨?_, by show st'.waker = some t; rw [hsm.waker]; exact c.2⟩
                show some s = some t.other
                rw [eq_other s t hts, hoo]
              · rw [hsm.polling, c.1, eq_other s t hts] at hp
                exact absurd rfl hp

theorem live_finish (cap : Option Nat) (items : List α) (st : St α) (s : Side) (ready : Bool) (hi : Inv 0 cap items st) (hl : Live st) (hs : st.task s = .flying) :
    Live (finish st s ready) := by
  obtain ⟨hb, hp, hx⟩ := hi.flying s hs
  have hoo : s.other.other = s := by cases s <;> rfl
  have hoth : ∀ t, t ≠ s → st.task t = .asleep → st.waker = some t := by
    intro t hts ht
    have he := eq_other s t hts
    subst he
    obtain ⟨_, _, c⟩ := hl _ ht
    rw [hoo] at c
    rcases c with c | c | c
    · exact c.2
    · rw [hb] at c; exact absurd c.2 (by omega)
    · rw [hp, Option.some.injEq] at c; exact absurd c.1.symm (other_ne s)
  have hnone : ∀ t, upd st.task s .awake t = .asleep → st.waker = some t := by
    intro t ht
    by_cases hts : t = s
    · subst hts; simp at ht
    · rw [upd_ne _ _ _ _ hts] at ht
      exact hoth t hts ht
  cases ready with
  | false =>
    simp only [finish]
    apply live_release
    intro t ht
    by_cases hts : t = s
    · subst hts
      exact ⟨hb, hx, Or.inr (Or.inr ⟨hp, rfl⟩)⟩
    · simp only [upd_ne _ _ _ _ hts] at ht
      refine ⟨(hl t ht).1, hx, Or.inl ⟨?_, hoth t hts ht⟩⟩
      show st.polling = some t.other
      rw [eq_other s t hts, hoo]
      exact hp
  | true =>
    cases hr : st.rest with
    | nil =>
      simp only [finish, hr]
      have hno : ∀ (st2 : St α) (w : Option Side), (∀ t, st2.task t = .asleep → w = some t) → ∀ t, (wakeAll st2 w).task t ≠ .asleep := by
        intro st2 w hw t ht
        cases w with
        | none => exact nomatch hw t ht
        | some w =>
          obtain ⟨h1, h2⟩ := asleep_wake st2 w t ht
          have := hw t h1
          rw [Option.some.injEq] at this
          exact h2 this.symm
      apply live_release
      intro t ht
      exact absurd ht (hno _ _ hnone t)
    | cons y r =>
      simp only [finish, hr]
      apply live_wakeAll
      intro t ht
      exact Or.inl (hnone t ht)

theorem live_step (cap : Option Nat) (items : List α) (st st' : St α) (e : Event) (hi : Inv 0 cap items st) (hl : Live st) (hstep : step st e = some st')
    (h0 : cap ≠ some 0) (h1 : ∀ s, e = .start s → st.task s.other = .flying → cap ≠ some 1) : Live st' := by
  cases e with
  | start s =>
    simp only [step] at hstep
    split at hstep
    · exact nomatch hstep
    next hn =>
      rw [Option.some.injEq] at hstep
      subst hstep
      exact live_start cap items st s hi hl (fun hf => hn (Or.inl hf)) h0 (h1 s rfl)
  | finish s ready =>
    simp only [step] at hstep
    split at hstep
    next hf =>
      rw [Option.some.injEq] at hstep
      subst hstep
      exact live_finish cap items st s ready hi hl hf
    · exact nomatch hstep
  | innerWake =>
    simp only [step, Option.some.injEq] at hstep
    subst hstep
    apply live_wakeAll
    intro t ht
    obtain ⟨a, b, c⟩ := hl t ht
    rcases c with c | c | c
    · exact Or.inr ⟨a, b, Or.inl c⟩
    · exact Or.inr ⟨a, b, Or.inr (Or.inl c)⟩
    · exact Or.inl c.2
  | drop s =>
    simp only [step] at hstep
    split at hstep
    · exact nomatch hstep
    next hn =>
      rw [Option.some.injEq] at hstep
      subst hstep
      intro t ht
      by_cases hts : t = s
      · subst hts; simp at ht
      · simp only [upd_ne _ _ _ _ hts] at ht
        exact hl t ht

theorem wakeAll_gone (st : St α) (w : Option Side) (h : ∀ t, st.task t ≠ .gone) : ∀ t, (wakeAll st w).task t ≠ .gone := by
  intro t
  cases w with
  | none => exact h t
  | some w =>
    show (wake st w).task t ≠ .gone
    rw [wake_task]
    split
    · decide
    · exact h t

theorem release_gone (st : St α) (h : ∀ t, st.task t ≠ .gone) : ∀ t, (release st).task t ≠ .gone := by
  unfold release
  split
  · exact h
  · exact wakeAll_gone _ (some _) h
  · exact h

theorem upd_gone (f : Side → Task) (s : Side) (v : Task) (h : ∀ t, f t ≠ .gone) (hv : v ≠ .gone) : ∀ t, upd f s v t ≠ .gone := by
  intro t
  by_cases hts : t = s
  · subst hts; simpa using hv
  · rw [upd_ne _ _ _ _ hts]; exact h t

/-- Without drops no half is gone. -/
theorem step_gone (st st' : St α) (e : Event) (h : ∀ t, st.task t ≠ .gone) (hd : ∀ s, e ≠ .drop s) (hstep : step st e = some st') : ∀ t, st'.task t ≠ .gone := by
  cases e with
  | drop s => exact absurd rfl (hd s)
  | innerWake =>
    simp only [step, Option.some.injEq] at hstep
    subst hstep
    exact wakeAll_gone _ _ h
  | finish s ready =>
    simp only [step] at hstep
    split at hstep
    · rw [Option.some.injEq] at hstep
      subst hstep
      unfold finish
      split
      · exact release_gone _ (upd_gone _ _ _ h (by decide))
      · exact release_gone _ (wakeAll_gone _ _ (upd_gone _ _ _ h (by decide)))
      · exact wakeAll_gone _ _ (upd_gone _ _ _ h (by decide))
    · exact nomatch hstep
  | start s =>
    simp only [step] at hstep
    split at hstep
    · exact nomatch hstep
    · rw [Option.some.injEq] at hstep
      subst hstep
      obtain ⟨hsame, _, htask2⟩ := acquire_same st s
      unfold start
      split
      · unfold popBuffer
        split
        · exact release_gone _ (upd_gone _ _ _ h (by decide))
        · exact release_gone _ (upd_gone _ _ _ h (by decide))
      · split
        · exact upd_gone _ _ _ h (by decide)
        · unfold pollMore
          cases ha : acquire st s with
          | mk o st2 =>
            cases o with
            | none =>
              rw [ha] at htask2
              simp only at htask2 ⊢
              rw [htask2]
              exact upd_gone _ _ _ h (by decide)
            | some st3 =>
              have htk := (hsame st3 (by rw [ha])).2
              have h' : ∀ t, st3.task t ≠ .gone := by rw [htk]; exact h
              simp only
              split
              · exact release_gone _ (upd_gone _ _ _ h' (by decide))
              · unfold takeInner
                split
                · exact h'
                · exact upd_gone _ _ _ h' (by decide)

/-- What a reason to sleep means, if no half is gone. -/
theorem waits_of_live (cap : Option Nat) (items : List α) (st : St α) (s : Side) (hi : Inv 0 cap items st) (hl : Live st) (hg : ∀ t, st.task t ≠ .gone)
    (hs : st.task s = .asleep) : Waits items st s := by
  obtain ⟨a, b, c⟩ := hl s hs
  have hoo : s.other.other = s := by cases s <;> rfl
  refine ⟨?_, ?_⟩
  · obtain ⟨done, h1, h2⟩ := hi.parts
    have := h2 s
    rw [if_pos a, List.append_nil] at this
    rw [this]
    exact h1
  · rcases c with c | c | c
    · cases ho : st.task s.other with
      | awake => exact Or.inr (Or.inl rfl)
      | flying => exact Or.inr (Or.inr (Or.inl rfl))
      | gone => exact absurd ho (hg _)
      | asleep =>
        refine Or.inr (Or.inr (Or.inr ⟨rfl, ?_⟩))
        obtain ⟨_, _, d⟩ := hl _ ho
        rw [hoo] at d
        rcases d with d | d | d
        · rw [c.1, Option.some.injEq] at d; exact absurd d.1 (other_ne s)
        · rw [a] at d; exact absurd d.2 (by omega)
        · exact d.2
    · cases ho : st.task s.other with
      | awake => exact Or.inr (Or.inl rfl)
      | flying => exact Or.inr (Or.inr (Or.inl rfl))
      | gone => exact absurd ho (hg _)
      | asleep =>
        have := (hl _ ho).1
        omega
    · exact Or.inl c.2

theorem reach_live (ok : St α → Event → Prop) (cap : Option Nat) (items : List α) (st : St α) (h0 : cap ≠ some 0) (hok : ∀ st e, ok st e → ∀ s, e ≠ .drop s)
    (h1 : ∀ st s, ok st (.start s) → st.task s.other = .flying → cap ≠ some 1) (h : Reach ok cap items st) : Live st ∧ ∀ t, st.task t ≠ .gone := by
  induction h with
  | init => exact ⟨fun _ h => (nomatch h), fun _ h => (nomatch h)⟩
  | step st st' e hr he hs ih =>
    refine ⟨live_step cap items st st' e (reach_inv ok cap items st hr) ih.1 hs h0 ?_, step_gone st st' e ih.2 (hok st e he) hs⟩
    intro s hes
    subst hes
    exact h1 st s he

/-- **No reader waits for nothing** when the capacity is not one (or zero) and no half is dropped, for all schedules of two tasks that run in parallel. -/
theorem C119_waits_partial (cap : Option Nat) (items : List α) (st : St α) (h0 : cap ≠ some 0) (h1 : cap ≠ some 1) (h : Reach Kept cap items st) (s : Side)
    (hs : st.task s = .asleep) : Waits items st s := by
  obtain ⟨hl, hg⟩ := reach_live Kept cap items st h0 (fun _ _ h => h) (fun _ _ _ _ => h1) h
  exact waits_of_live cap items st s (reach_inv _ cap items st h) hl hg hs

/-- **No reader waits for nothing** when one task polls both halves and drops none, for all capacities but zero: the writes of blobs, as long as no writer fails. -/
theorem C119_one_task_partial (cap : Option Nat) (items : List α) (st : St α) (h0 : cap ≠ some 0) (h : Reach OneTask cap items st) (s : Side)
    (hs : st.task s = .asleep) : Waits items st s := by
  obtain ⟨hl, hg⟩ := reach_live OneTask cap items st h0 (fun _ _ h => h.1) (fun st s hok hf => absurd hf (hok.2 s rfl _)) h
  exact waits_of_live cap items st s (reach_inv _ cap items st h) hl hg hs

/-! ## Readers that wait for nothing -/

theorem reach_run (items : List α) (cap : Option Nat) (st st' : St α) (es : List Event) (h : Reach (fun _ _ => True) cap items st) (hr : run st es = some st') :
    Reach (fun _ _ => True) cap items st' := by
  induction es generalizing st with
  | nil => rw [run, Option.some.injEq] at hr; subst hr; exact h
  | cons e es ih =>
    unfold run at hr
    cases hs : step st e with
    | none => rw [hs] at hr; exact nomatch hr
    | some st2 =>
      rw [hs] at hr
      exact ih st2 (.step st st2 e h trivial hs) hr

/-- **Violated**: with a capacity of one and two tasks in parallel, both sleep for ever although an item is in the buffer: while the first half is in the inner stream, the second finds no permit;
the first gives it an item but wakes nobody, and then takes over the future that waits for the permit. -/
theorem C119_parallel_violated (x : α) (items : List α) :
    ∃ st, run (init (some 1) (x :: items)) [.start .left, .start .right, .finish .left true, .start .left] = some st ∧
      st.task .left = .asleep ∧ st.task .right = .asleep ∧ st.innerWaker = none ∧ st.buffer = [x] ∧ st.buffered .right = 1 ∧ st.out .right = [] :=
  ⟨_, rfl, rfl, rfl, rfl, rfl, rfl, rfl⟩

/-- The right half after the left one was dropped and `k` items were read. -/
structure Alone (c k : Nat) (items : List α) (st : St α) : Prop where
  left : st.task .left = .gone
  right : st.task .right = .awake
  polling : st.polling = none
  waker : st.waker = none
  exhausted : st.exhausted = false
  noItems : st.buffered .right = 0
  permits : st.permits = some (c - k)
  queued : st.queued = none
  innerWaker : st.innerWaker = none
  out : st.out .right = items.take k
  rest : st.rest = items.drop k
  ended : st.ended .right = false

theorem alone_read (c k : Nat) (items : List α) (st : St α) (h : Alone c k items st) (hk : k < c) (hn : k < items.length) :
    ∃ st', run st [.start .right, .finish .right true] = some st' ∧ Alone c (k + 1) items st' := by
  obtain ⟨rest, innerWaker, buffer, polling, waker, exhausted, buffered, permits, queued, task, out, ended, panicked⟩ := st
  obtain ⟨h1, h2, h3, h4, h5, h6, h7, h8, h9, h10, h11, h12⟩ := h
  simp only at h1 h2 h3 h4 h5 h6 h7 h8 h9 h10 h11 h12
  subst h3 h4 h5 h8 h9
  obtain ⟨p, hp⟩ : ∃ p, c - k = p + 1 := ⟨c - k - 1, by omega⟩
  rw [hp] at h7
  subst h7
  have hd : items.drop k = items[k] :: items.drop (k + 1) := List.drop_eq_getElem_cons hn
  rw [hd] at h11
  subst h11
  refine ⟨⟨items.drop (k + 1), none, buffer ++ [items[k]], none, none, false, upd buffered .left (buffered .left + 1), some p, none,
    upd (upd task .right .flying) .right .awake, upd out .right (out .right ++ [items[k]]), ended, panicked⟩, ?_, ?_⟩
  · simp [run, step, h2, start, h6, pollMore, acquire, takeInner, Side.other, h1, finish, wakeAll]
    rw [hd]
  · refine ⟨?_, ?_, rfl, rfl, rfl, ?_, ?_, rfl, rfl, ?_, rfl, h12⟩
    · simp [upd, h1]
    · simp [upd]
    · simp [upd, h6]
    · show some p = some (c - (k + 1))
      congr 1
      omega
    · simp only [upd_same, h10]
      rw [List.take_succ_eq_append_getElem hn]

theorem run_append (st st' : St α) (a b : List Event) (h : run st a = some st') : run st (a ++ b) = run st' b := by
  induction a generalizing st with
  | nil => rw [run, Option.some.injEq] at h; subst h; rfl
  | cons e a ih =>
    rw [List.cons_append]
    simp only [run] at h ⊢
    cases hs : step st e with
    | none => rw [hs] at h; exact nomatch h
    | some st2 =>
      rw [hs] at h
      exact ih st2 h

theorem alone_reads (c k : Nat) (items : List α) (st : St α) (h : Alone c 0 items st) (hk : k ≤ c) (hn : k ≤ items.length) :
    ∃ es st', run st es = some st' ∧ Alone c k items st' := by
  induction k with
  | zero => exact ⟨[], st, rfl, h⟩
  | succ k ih =>
    obtain ⟨es, st1, h1, h2⟩ := ih (by omega) (by omega)
    obtain ⟨st2, h3, h4⟩ := alone_read c k items st1 h2 (by omega) (by omega)
    exact ⟨es ++ [.start .right, .finish .right true], st2, by rw [run_append _ _ _ _ h1]; exact h3, h4⟩

/-- The right half waits for a permit that nobody will give back. -/
structure Stuck (st : St α) : Prop where
  left : st.task .left = .gone
  right : st.task .right = .asleep ∨ st.task .right = .gone
  noItems : st.buffered .right = 0
  exhausted : st.exhausted = false
  permits : st.permits = some 0
  queued : ∃ w, st.queued = some (w, false)
  innerWaker : st.innerWaker = none

theorem stuck_step (st st' : St α) (e : Event) (h : Stuck st) (hs : step st e = some st') : Stuck st' ∧ st'.out = st.out ∧ st'.ended = st.ended := by
  obtain ⟨w, hq⟩ := h.queued
  cases e with
  | start s =>
    cases s with
    | left => simp [step, h.left] at hs
    | right =>
      rcases h.right with hr | hr
      · simp only [step, hr, reduceCtorEq, or_self, if_false, Option.some.injEq] at hs
        subst hs
        have : start st .right = { st with queued := some (.right, false), task := upd st.task .right .asleep } := by
          simp [start, h.noItems, h.exhausted, pollMore, acquire, h.permits, hq]
        rw [this]
        exact ⟨⟨by simp [upd, h.left], by simp, h.noItems, h.exhausted, h.permits, ⟨_, rfl⟩, h.innerWaker⟩, rfl, rfl⟩
      · simp [step, hr] at hs
  | finish s ready =>
    cases s with
    | left => simp [step, h.left] at hs
    | right => rcases h.right with hr | hr <;> simp [step, hr] at hs
  | innerWake =>
    simp only [step, h.innerWaker, wakeAll, Option.some.injEq] at hs
    subst hs
    exact ⟨⟨h.left, h.right, h.noItems, h.exhausted, h.permits, h.queued, rfl⟩, rfl, rfl⟩
  | drop s =>
    simp only [step] at hs
    split at hs
    · exact nomatch hs
    · rw [Option.some.injEq] at hs
      subst hs
      refine ⟨⟨?_, ?_, h.noItems, h.exhausted, h.permits, h.queued, h.innerWaker⟩, rfl, rfl⟩
      · cases s <;> simp [upd, h.left]
      · cases s
        · simpa [upd] using h.right
        · simp [upd]

theorem stuck_run (st st' : St α) (es : List Event) (h : Stuck st) (hr : run st es = some st') : Stuck st' ∧ st'.out = st.out ∧ st'.ended = st.ended := by
  induction es generalizing st with
  | nil => rw [run, Option.some.injEq] at hr; subst hr; exact ⟨h, rfl, rfl⟩
  | cons e es ih =>
    unfold run at hr
    cases hs : step st e with
    | none => rw [hs] at hr; exact nomatch hr
    | some st2 =>
      rw [hs] at hr
      obtain ⟨a, b, c⟩ := stuck_step st st2 e h hs
      obtain ⟨a', b', c'⟩ := ih st2 a hr
      exact ⟨a', by rw [b', b], by rw [c', c]⟩

/-- **Violated**: if one half is dropped (a writer failed), the other gets as many items as the capacity and then waits for ever: no event gives it another item or the end.  The write hangs instead of
giving the error, since `join!` waits for both writers. -/
theorem C119_dropped_violated (c : Nat) (items : List α) (h : c < items.length) :
    ∃ es st, run (init (some c) items) (.drop .left :: es) = some st ∧ st.out .right = items.take c ∧
      ∀ es' st', run st es' = some st' → st'.out .right = items.take c ∧ st'.ended .right = false := by
  have h0 : Alone c 0 items { init (some c) items with task := upd (fun _ => .awake) .left .gone } :=
    ⟨rfl, rfl, rfl, rfl, rfl, rfl, rfl, rfl, rfl, rfl, rfl, rfl⟩
  obtain ⟨es, st1, h1, h2⟩ := alone_reads c c items _ h0 (Nat.le_refl _) (by omega)
  have hp : st1.permits = some 0 := by rw [h2.permits, Nat.sub_self]
  have hst : step st1 (.start .right) = some { st1 with queued := some (.right, false), task := upd st1.task .right .asleep } := by
    simp [step, h2.right, start, h2.noItems, h2.exhausted, pollMore, acquire, hp, h2.queued]
  have hstuck : Stuck { st1 with queued := some (.right, false), task := upd st1.task .right .asleep } :=
    ⟨by simp [upd, h2.left], by simp, h2.noItems, h2.exhausted, hp, ⟨_, rfl⟩, h2.innerWaker⟩
  refine ⟨es ++ [.start .right], { st1 with queued := some (.right, false), task := upd st1.task .right .asleep }, ?_, h2.out, fun es' st' hr => ?_⟩
  rotate_left
  · obtain ⟨_, b, d⟩ := stuck_run _ _ es' hstuck hr
    exact ⟨by rw [b]; exact h2.out, by rw [d]; exact h2.ended⟩
  · show run { init (some c) items with task := upd (fun _ => .awake) .left .gone } (es ++ [.start .right]) = _
    rw [run_append _ _ _ _ h1]
    unfold run
    rw [hst]
    rfl

/-- The right half waits for the left one, which is gone. -/
structure Orphan (st : St α) : Prop where
  left : st.task .left = .gone
  right : st.task .right ≠ .flying
  polling : st.polling = some .left
  noItems : st.buffered .right = 0
  exhausted : st.exhausted = false
  permits : st.permits = .none

theorem orphan_step (st st' : St α) (e : Event) (h : Orphan st) (hs : step st e = some st') : Orphan st' ∧ st'.out = st.out ∧ st'.ended = st.ended := by
  cases e with
  | start s =>
    cases s with
    | left => simp [step, h.left] at hs
    | right =>
      simp only [step] at hs
      split at hs
      · exact nomatch hs
      · rw [Option.some.injEq] at hs
        subst hs
        have : start st .right = { st with waker := some .right, task := upd st.task .right .asleep } := by
          simp [start, h.noItems, h.exhausted, pollMore, acquire, h.permits, h.polling, Side.other, release]
        rw [this]
        exact ⟨⟨by simp [upd, h.left], by simp, h.polling, h.noItems, h.exhausted, h.permits⟩, rfl, rfl⟩
  | finish s ready =>
    cases s with
    | left => simp [step, h.left] at hs
    | right => simp [step, h.right] at hs
  | innerWake =>
    simp only [step, Option.some.injEq] at hs
    subst hs
    cases hw : st.innerWaker with
    | none => exact ⟨⟨h.left, h.right, h.polling, h.noItems, h.exhausted, h.permits⟩, rfl, rfl⟩
    | some w =>
      have hsm := wake_same { st with innerWaker := .none } w
      have hpm := wake_permits { st with innerWaker := .none } w
      refine ⟨⟨?_, ?_, by show (wake _ w).polling = _; rw [hsm.polling]; exact h.polling, by show (wake _ w).buffered _ = _; rw [hsm.buffered]; exact h.noItems,
        by show (wake _ w).exhausted = _; rw [hsm.exhausted]; exact h.exhausted, by show (wake _ w).permits = _; rw [hpm.1]; exact h.permits⟩, hsm.out, hsm.ended⟩
      · show (wake _ w).task .left = .gone
        rw [wake_task]
        simp [h.left]
      · show (wake _ w).task .right ≠ .flying
        rw [wake_task]
        split
        · decide
        · exact h.right
  | drop s =>
    simp only [step] at hs
    split at hs
    · exact nomatch hs
    · rw [Option.some.injEq] at hs
      subst hs
      refine ⟨⟨?_, ?_, h.polling, h.noItems, h.exhausted, h.permits⟩, rfl, rfl⟩
      · cases s <;> simp [upd, h.left]
      · cases s
        · simpa [upd] using h.right
        · simp [upd]

/-- **Violated**: if a half is dropped after a poll that found the inner stream not ready, the other one never gets an item nor the end, even without a limit of the capacity, whatever the inner stream does. -/
theorem C119_dropped_polling_violated (items : List α) (es : List Event) (st : St α) (h : run (init none items) (.start .left :: .finish .left false :: .drop .left :: es) = some st) :
    st.out .right = [] ∧ st.ended .right = false := by
  have key : ∀ (es : List Event) (s1 s2 : St α), Orphan s1 → run s1 es = some s2 → s2.out = s1.out ∧ s2.ended = s1.ended := by
    intro es
    induction es with
    | nil => intro s1 s2 _ hr; rw [run, Option.some.injEq] at hr; subst hr; exact ⟨rfl, rfl⟩
    | cons e es ih =>
      intro s1 s2 ho hr
      unfold run at hr
      cases hs : step s1 e with
      | none => rw [hs] at hr; exact nomatch hr
      | some s3 =>
        rw [hs] at hr
        obtain ⟨a, b, c⟩ := orphan_step s1 s3 e ho hs
        obtain ⟨b', c'⟩ := ih s3 s2 a hr
        exact ⟨by rw [b', b], by rw [c', c]⟩
  have hfirst : ∃ s1 : St α, run (init none items) [.start .left, .finish .left false, .drop .left] = some s1 ∧ Orphan s1 ∧ s1.out .right = [] ∧ s1.ended .right = false :=
    ⟨_, rfl, ⟨rfl, fun h => (nomatch (show Task.awake = Task.flying from h)), rfl, rfl, rfl, rfl⟩, rfl, rfl⟩
  obtain ⟨s1, h1, h2, h3, h4⟩ := hfirst
  have := run_append (init none items) s1 [.start .left, .finish .left false, .drop .left] es h1
  rw [← h3, ← h4]
  have hr : run s1 es = some st := by rw [← this]; exact h
  obtain ⟨a, b⟩ := key es s1 st h2 hr
  exact ⟨by rw [a], by rw [b]⟩

/-- **Violated**: the full claim. -/
theorem C119_violated : ¬ C119_statement := by
  intro h
  obtain ⟨st, h1, h2, h3, h4, h5, h6, h7⟩ := C119_parallel_violated (7 : Nat) []
  have := (h (some 1) [7] st (by decide) (reach_run _ _ _ _ _ .init h1)).2 .right h3
  obtain ⟨_, hw⟩ := this
  rw [h4, show Side.right.other = Side.left from rfl, h2] at hw
  simp at hw

/-- **Not empty**: with a capacity of two, both halves get all three items and the end, the left one after it waited for a permit, the right one after it waited for the left one; all without drops. -/
theorem C119_nonvacuous :
    ∃ st1 st2, run (init (some 2) [1, 2, 3]) [.start .left, .start .right, .finish .left true, .start .left, .finish .left true, .start .left] = some st1 ∧
      st1.task .left = .asleep ∧ st1.task .right = .awake ∧ st1.queued = some (.left, false) ∧
      run st1 [.start .right, .start .left, .finish .left true, .start .right, .start .right, .start .right, .finish .right false, .innerWake, .start .right, .finish .right true, .start .left] = some st2 ∧
      st2.out .left = [1, 2, 3] ∧ st2.out .right = [1, 2, 3] ∧ st2.ended .left = true ∧ st2.ended .right = true :=
  ⟨_, _, rfl, rfl, rfl, rfl, rfl, rfl, rfl, rfl, rfl⟩

end Verif.Shared
