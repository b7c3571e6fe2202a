import Verif.Shared.Model
/-! Invariants of shared streams. -/
namespace Verif.Shared

variable {α : Type}

@[simp] theorem upd_same {β : Type} (f : Side → β) (s : Side) (v : β) : upd f s v s = v := by simp [upd]

theorem upd_ne {β : Type} (f : Side → β) (s t : Side) (v : β) (h : t ≠ s) : upd f s v t = f t := by simp [upd, h]

theorem other_ne (s : Side) : s.other ≠ s := by cases s <;> simp [Side.other]

theorem eq_other (s t : Side) (h : t ≠ s) : t = s.other := by
  cases s <;> cases t <;> first | rfl | exact absurd rfl h

@[simp] theorem upd_other {β : Type} (f : Side → β) (s : Side) (v : β) : upd f s v s.other = f s.other := upd_ne f s _ v (other_ne s)

@[simp] theorem upd_other' {β : Type} (f : Side → β) (s : Side) (v : β) : upd f s.other v s = f s := upd_ne f _ s v (fun h => other_ne s h.symm)

/-- Whether a task is in a poll, as a number. -/
def flag (t : Task) : Nat := if t = .flying then 1 else 0

/-- The polls that are in flight. -/
def fl (st : St α) (s : Side) : Nat := flag (st.task s) + flag (st.task s.other)

/-- The permits that are granted to a future but not taken by it. -/
def granted (q : Option (Side × Bool)) : Nat :=
  match q with
  | some (_, true) => 1
  | _ => 0

/-- What holds between the steps; `x` permits are held besides those of items and polls. -/
structure Inv (x : Nat) (cap : Option Nat) (items : List α) (st : St α) : Prop where
  panicked : st.panicked = false
  parts : ∃ done, items = done ++ st.rest ∧ ∀ s, st.out s ++ (if st.buffered s = 0 then [] else st.buffer) = done
  one : ∀ s, st.buffered s = 0 ∨ st.buffered s.other = 0
  total : ∀ s, st.buffer.length = st.buffered s + st.buffered s.other
  flying : ∀ s, st.task s = .flying → st.buffered s = 0 ∧ st.polling = some s ∧ st.exhausted = false
  exhausted : st.exhausted = true → st.rest = []
  ended : ∀ s, st.ended s = true → st.exhausted = true ∧ st.buffered s = 0
  waiting : ∀ w, st.queued = some (w, false) → st.permits = some 0
  permits : ∀ c, cap = some c → ∃ n, st.permits = some n ∧ ∀ s, n + st.buffer.length + fl st s + granted st.queued + x = c
  unbounded : cap = none → st.permits = none

theorem inv_init (cap : Option Nat) (items : List α) : Inv 0 cap items (init cap items) where
  panicked := rfl
  parts := ⟨[], rfl, fun _ => rfl⟩
  one := fun _ => Or.inl rfl
  total := fun _ => rfl
  flying := fun _ h => nomatch h
  exhausted := fun h => nomatch h
  ended := fun _ h => nomatch h
  waiting := fun _ h => nomatch h
  permits := fun c h => ⟨c, h, fun _ => rfl⟩
  unbounded := id

theorem wake_task (st : St α) (w s : Side) : (wake st w).task s = if s = w ∧ st.task s = .asleep then .awake else st.task s := by
  unfold wake
  split
  next h =>
    by_cases hs : s = w
    · subst hs; simp [h]
    · simp [upd_ne _ _ _ _ hs, hs]
  next h =>
    split
    next h' => exact absurd (h'.1 ▸ h'.2) h
    next => rfl

theorem wake_flag (st : St α) (w s : Side) : flag ((wake st w).task s) = flag (st.task s) := by
  rw [wake_task]
  split
  next h => rw [h.2]; rfl
  next => rfl

/-- Everything but the tasks is as before. -/
structure Same (st st' : St α) : Prop where
  rest : st'.rest = st.rest
  innerWaker : st'.innerWaker = st.innerWaker
  buffer : st'.buffer = st.buffer
  polling : st'.polling = st.polling
  waker : st'.waker = st.waker
  exhausted : st'.exhausted = st.exhausted
  buffered : st'.buffered = st.buffered
  out : st'.out = st.out
  ended : st'.ended = st.ended
  panicked : st'.panicked = st.panicked

theorem wake_same (st : St α) (w : Side) : Same st (wake st w) := by
  unfold wake
  split <;> exact ⟨rfl, rfl, rfl, rfl, rfl, rfl, rfl, rfl, rfl, rfl⟩

theorem wake_permits (st : St α) (w : Side) : (wake st w).permits = st.permits ∧ (wake st w).queued = st.queued := by
  unfold wake
  split <;> exact ⟨rfl, rfl⟩

theorem flying_of_flag (t : Task) : t = .flying ↔ flag t = 1 := by cases t <;> simp [flag]

theorem inv_wake (x : Nat) (cap : Option Nat) (items : List α) (st : St α) (w : Side) (h : Inv x cap items st) : Inv x cap items (wake st w) := by
  have hs := wake_same st w
  obtain ⟨hp, hq⟩ := wake_permits st w
  have hf : ∀ s, fl (wake st w) s = fl st s := fun s => by simp only [fl, wake_flag]
  refine ⟨by rw [hs.panicked]; exact h.panicked, ?_, ?_, ?_, ?_, ?_, ?_, ?_, ?_, ?_⟩
  · rw [hs.rest, hs.out, hs.buffered, hs.buffer]; exact h.parts
  · rw [hs.buffered]; exact h.one
  · rw [hs.buffered, hs.buffer]; exact h.total
  · rw [hs.buffered, hs.polling, hs.exhausted]
    intro s hfl
    exact h.flying s ((flying_of_flag _).mpr (by rw [← wake_flag st w s]; exact (flying_of_flag _).mp hfl))
  · rw [hs.rest, hs.exhausted]; exact h.exhausted
  · rw [hs.ended, hs.exhausted, hs.buffered]; exact h.ended
  · rw [hp, hq]; exact h.waiting
  · rw [hp, hq, hs.buffer]
    intro c hc
    obtain ⟨n, h1, h2⟩ := h.permits c hc
    exact ⟨n, h1, fun s => by rw [hf]; exact h2 s⟩
  · rw [hp]; exact h.unbounded

theorem inv_wakeAll (x : Nat) (cap : Option Nat) (items : List α) (st : St α) (w : Option Side) (h : Inv x cap items st) : Inv x cap items (wakeAll st w) := by
  cases w with
  | none => exact h
  | some w => exact inv_wake x cap items st w h

theorem inv_release (cap : Option Nat) (items : List α) (st : St α) (h : Inv 1 cap items st) : Inv 0 cap items (release st) := by
  cases hp : st.permits with
  | none =>
    have hc : cap = none := by
      cases hc : cap with
      | none => rfl
      | some c => obtain ⟨n, h1, _⟩ := h.permits c hc; rw [hp] at h1; exact nomatch h1
    have : release st = st := by simp only [release, hp]
    rw [this]
    exact ⟨h.panicked, h.parts, h.one, h.total, h.flying, h.exhausted, h.ended, h.waiting, fun c h' => (by rw [hc] at h'; exact nomatch h'), h.unbounded⟩
  | some n =>
    cases hq : st.queued with
    | none =>
      have : release st = { st with permits := some (n + 1) } := by simp only [release, hp, hq]
      rw [this]
      refine ⟨h.panicked, h.parts, h.one, h.total, h.flying, h.exhausted, h.ended, ?_, ?_, ?_⟩
      · intro w hw; rw [hq] at hw; exact nomatch hw
      · intro c hc
        obtain ⟨m, h1, h2⟩ := h.permits c hc
        rw [hp, Option.some.injEq] at h1
        subst h1
        exact ⟨n + 1, rfl, fun s => by have := h2 s; show n + 1 + st.buffer.length + fl st s + granted st.queued + 0 = c; omega⟩
      · intro hc; have := h.unbounded hc; rw [hp] at this; exact nomatch this
    | some q =>
      obtain ⟨w, g⟩ := q
      cases g with
      | true =>
        have : release st = { st with permits := some (n + 1) } := by simp only [release, hp, hq]
        rw [this]
        refine ⟨h.panicked, h.parts, h.one, h.total, h.flying, h.exhausted, h.ended, ?_, ?_, ?_⟩
        · intro w' hw; rw [hq] at hw; exact nomatch hw
        · intro c hc
          obtain ⟨m, h1, h2⟩ := h.permits c hc
          rw [hp, Option.some.injEq] at h1
          subst h1
          exact ⟨n + 1, rfl, fun s => by have := h2 s; show n + 1 + st.buffer.length + fl st s + granted st.queued + 0 = c; omega⟩
        · intro hc; have := h.unbounded hc; rw [hp] at this; exact nomatch this
      | false =>
        have : release st = wake { st with queued := some (w, true) } w := by simp only [release, hp, hq]
        rw [this]
        apply inv_wake
        refine ⟨h.panicked, h.parts, h.one, h.total, h.flying, h.exhausted, h.ended, ?_, ?_, h.unbounded⟩
        · intro w' hw; simp at hw
        · intro c hc
          obtain ⟨m, h1, h2⟩ := h.permits c hc
          refine ⟨m, h1, fun s => ?_⟩
          have := h2 s
          rw [hq] at this
          show m + st.buffer.length + fl st s + 1 + 0 = c
          simp only [granted] at this
          omega

theorem release_same (st : St α) : Same st (release st) := by
  unfold release
  split
  · exact ⟨rfl, rfl, rfl, rfl, rfl, rfl, rfl, rfl, rfl, rfl⟩
  · have := wake_same { st with queued := some (‹Side›, true) } ‹Side›
    exact ⟨this.rest, this.innerWaker, this.buffer, this.polling, this.waker, this.exhausted, this.buffered, this.out, this.ended, this.panicked⟩
  · exact ⟨rfl, rfl, rfl, rfl, rfl, rfl, rfl, rfl, rfl, rfl⟩

theorem acquire_same (st : St α) (s : Side) : (∀ st', (acquire st s).1 = some st' → Same st st' ∧ st'.task = st.task) ∧ Same st (acquire st s).2 ∧ (acquire st s).2.task = st.task := by
  refine ⟨fun st' h => ?_, ?_, ?_⟩
  · unfold acquire at h
    split at h <;> simp only [Option.some.injEq, reduceCtorEq] at h <;> subst h <;> exact ⟨⟨rfl, rfl, rfl, rfl, rfl, rfl, rfl, rfl, rfl, rfl⟩, rfl⟩
  · unfold acquire
    split <;> exact ⟨rfl, rfl, rfl, rfl, rfl, rfl, rfl, rfl, rfl, rfl⟩
  · unfold acquire
    split <;> rfl

theorem inv_acquire (cap : Option Nat) (items : List α) (st st' : St α) (s : Side) (h : Inv 0 cap items st) (ha : (acquire st s).1 = some st') : Inv 1 cap items st' := by
  have mk : ∀ (p : Option Nat) (q : Option (Side × Bool)), (∀ w, q = some (w, false) → p = some 0) →
      (∀ c, cap = some c → ∃ n, p = some n ∧ ∀ s, n + st.buffer.length + fl st s + granted q + 1 = c) → (cap = none → p = none) →
      Inv 1 cap items { st with permits := p, queued := q } :=
    fun p q h1 h2 h3 => ⟨h.panicked, h.parts, h.one, h.total, h.flying, h.exhausted, h.ended, h1, h2, h3⟩
  cases hp : st.permits with
  | none =>
    have hc : cap = none := by
      cases hc : cap with
      | none => rfl
      | some c => obtain ⟨n, h1, _⟩ := h.permits c hc; rw [hp] at h1; exact nomatch h1
    simp only [acquire, hp, Option.some.injEq] at ha
    subst ha
    exact ⟨h.panicked, h.parts, h.one, h.total, h.flying, h.exhausted, h.ended, h.waiting, fun c h' => (by rw [hc] at h'; exact nomatch h'), h.unbounded⟩
  | some n =>
    cases hq : st.queued with
    | none =>
      cases n with
      | zero => simp only [acquire, hp, hq] at ha; exact nomatch ha
      | succ n =>
        simp only [acquire, hp, hq, Option.some.injEq] at ha
        subst ha
        have := mk (some n) none (fun w hw => nomatch hw)
          (fun c hc => by
            obtain ⟨m, h1, h2⟩ := h.permits c hc
            rw [hp, Option.some.injEq] at h1
            subst h1
            refine ⟨n, rfl, fun s => ?_⟩
            have := h2 s
            rw [hq] at this
            omega)
          (fun hc => by have := h.unbounded hc; rw [hp] at this; exact nomatch this)
        exact this
    | some q =>
      obtain ⟨w, g⟩ := q
      cases g with
      | false => simp only [acquire, hp, hq] at ha; exact nomatch ha
      | true =>
        simp only [acquire, hp, hq, Option.some.injEq] at ha
        subst ha
        have := mk (some n) none (fun w hw => nomatch hw)
          (fun c hc => by
            obtain ⟨m, h1, h2⟩ := h.permits c hc
            rw [hp, Option.some.injEq] at h1
            subst h1
            refine ⟨n, rfl, fun s => ?_⟩
            have := h2 s
            rw [hq] at this
            simp only [granted] at this ⊢
            omega)
          (fun hc => by have := h.unbounded hc; rw [hp] at this; exact nomatch this)
        exact this

theorem inv_blocked (cap : Option Nat) (items : List α) (st : St α) (s : Side) (h : Inv 0 cap items st) (ha : (acquire st s).1 = none) :
    (acquire st s).2 = { st with queued := some (s, false) } ∧ st.permits = some 0 ∧ granted st.queued = 0 ∧ Inv 0 cap items (acquire st s).2 := by
  have key : ∀ n, st.permits = some n → (acquire st s).2 = { st with queued := some (s, false) } → st.permits = some 0 → granted st.queued = 0 →
      (acquire st s).2 = { st with queued := some (s, false) } ∧ st.permits = some 0 ∧ granted st.queued = 0 ∧ Inv 0 cap items (acquire st s).2 := by
    intro n hp he h0 hg
    refine ⟨he, h0, hg, ?_⟩
    rw [he]
    refine ⟨h.panicked, h.parts, h.one, h.total, h.flying, h.exhausted, h.ended, fun _ _ => h0, fun c hc => ?_, h.unbounded⟩
    obtain ⟨m, h1, h2⟩ := h.permits c hc
    refine ⟨m, h1, fun s' => ?_⟩
    have := h2 s'
    rw [hg] at this
    exact this
  cases hp : st.permits with
  | none => simp only [acquire, hp] at ha; exact nomatch ha
  | some n =>
    cases hq : st.queued with
    | none =>
      cases n with
      | succ n => simp only [acquire, hp, hq] at ha; exact nomatch ha
      | zero =>
        have := key 0 hp (by simp only [acquire, hp, hq]) hp (by rw [hq]; rfl)
        rw [hp, hq] at this
        exact this
    | some q =>
      obtain ⟨w, g⟩ := q
      cases g with
      | true => simp only [acquire, hp, hq] at ha; exact nomatch ha
      | false =>
        have h0 := h.waiting w hq
        have := key n hp (by simp only [acquire, hp, hq]) h0 (by rw [hq]; rfl)
        rw [hp, hq] at this
        exact this

/-- A task that is not in a poll is replaced by another state that is no poll. -/
theorem inv_task (x : Nat) (cap : Option Nat) (items : List α) (st : St α) (s : Side) (v : Task) (h : Inv x cap items st) (hs : st.task s ≠ .flying) (hv : v ≠ .flying) :
    Inv x cap items { st with task := upd st.task s v } := by
  have hf : ∀ t, flag (upd st.task s v t) = flag (st.task t) := by
    intro t
    by_cases ht : t = s
    · subst ht; simp [flag, hs, hv]
    · rw [upd_ne _ _ _ _ ht]
  refine ⟨h.panicked, h.parts, h.one, h.total, ?_, h.exhausted, h.ended, h.waiting, ?_, h.unbounded⟩
  · intro t ht
    exact h.flying t ((flying_of_flag _).mpr (by rw [← hf t]; exact (flying_of_flag _).mp ht))
  · intro c hc
    obtain ⟨n, h1, h2⟩ := h.permits c hc
    refine ⟨n, h1, fun t => ?_⟩
    have := h2 t
    simp only [fl, hf] at this ⊢
    exact this

theorem fl_other (st : St α) (s : Side) : fl st s.other = fl st s := by
  cases s <;> simp only [fl, Side.other] <;> omega

theorem inv_popBuffer (cap : Option Nat) (items : List α) (st : St α) (s : Side) (h : Inv 0 cap items st) (hs : st.task s ≠ .flying) (hb : 0 < st.buffered s) :
    Inv 0 cap items (popBuffer st s) := by
  have ho : st.buffered s.other = 0 := by
    rcases h.one s with h1 | h1
    · omega
    · exact h1
  have hl := h.total s
  cases hbuf : st.buffer with
  | nil => rw [hbuf] at hl; simp at hl; omega
  | cons y b =>
    have he : popBuffer st s = release { st with buffer := b, buffered := upd st.buffered s (st.buffered s - 1), out := upd st.out s (st.out s ++ [y]), task := upd st.task s .awake } := by
      simp only [popBuffer, hbuf]
    rw [he]
    apply inv_release
    have hlb : st.buffered s = b.length + 1 := by rw [hbuf, ho] at hl; simpa using hl.symm
    have hf : ∀ t, flag (upd st.task s .awake t) = flag (st.task t) := by
      intro t
      by_cases ht : t = s
      · subst ht; simp [flag, hs]
      · rw [upd_ne _ _ _ _ ht]
    have hcnt : ∀ t, upd st.buffered s (st.buffered s - 1) t = 0 ∨ (t = s) := by
      intro t
      by_cases ht : t = s
      · exact Or.inr ht
      · left; rw [upd_ne _ _ _ _ ht, eq_other s t ht, ho]
    refine ⟨h.panicked, ?_, ?_, ?_, ?_, h.exhausted, ?_, h.waiting, ?_, h.unbounded⟩
    · obtain ⟨done, h1, h2⟩ := h.parts
      refine ⟨done, h1, fun t => ?_⟩
      by_cases ht : t = s
      · subst ht
        have := h2 t
        rw [if_neg (by omega), hbuf] at this
        simp only [upd_same]
        rw [← this, List.append_assoc]
        congr 1
        split
        next hz =>
          have : b = [] := List.length_eq_zero_iff.mp (by omega)
          rw [this]; rfl
        next => rfl
      · have := h2 t
        have h0 : st.buffered t = 0 := by rw [eq_other s t ht, ho]
        rw [if_pos h0] at this
        simp only [upd_ne _ _ _ _ ht]
        rw [if_pos h0]
        exact this
    · intro t
      by_cases ht : t = s
      · subst ht
        right
        simp only [upd_other]
        exact ho
      · left
        simp only [upd_ne _ _ _ _ ht]
        rw [eq_other s t ht, ho]
    · intro t
      by_cases ht : t = s
      · subst ht
        simp only [upd_same, upd_other]
        omega
      · rw [eq_other s t ht]
        have hoo : s.other.other = s := by cases s <;> rfl
        simp only [upd_other, hoo, upd_same]
        omega
    · intro t ht
      have ht' : st.task t = .flying := (flying_of_flag _).mpr (by rw [← hf t]; exact (flying_of_flag _).mp ht)
      have := h.flying t ht'
      have hts : t ≠ s := fun e => hs (e ▸ ht')
      simp only [upd_ne _ _ _ _ hts]
      exact this
    · intro t ht
      obtain ⟨h1, h2⟩ := h.ended t ht
      have hts : t ≠ s := fun e => by rw [e] at h2; omega
      simp only [upd_ne _ _ _ _ hts]
      exact ⟨h1, h2⟩
    · intro c hc
      obtain ⟨n, h1, h2⟩ := h.permits c hc
      refine ⟨n, h1, fun t => ?_⟩
      have := h2 t
      rw [hbuf, List.length_cons] at this
      simp only [fl, hf] at this ⊢
      omega

theorem inv_takeInner (cap : Option Nat) (items : List α) (st : St α) (s : Side) (h : Inv 1 cap items st) (hs : st.task s ≠ .flying) (hb : st.buffered s = 0)
    (he : st.exhausted = false) (hp : st.polling ≠ some s.other) : Inv 0 cap items (takeInner st s) ∧ takeInner st s = { st with polling := some s, task := upd st.task s .flying } := by
  have ho : st.task s.other ≠ .flying := fun hf => hp (h.flying s.other hf).2.1
  have heq : takeInner st s = { st with polling := some s, task := upd st.task s .flying } := by
    unfold takeInner
    rw [if_neg ho]
  refine ⟨?_, heq⟩
  rw [heq]
  refine ⟨h.panicked, h.parts, h.one, h.total, ?_, h.exhausted, h.ended, h.waiting, ?_, h.unbounded⟩
  · intro t ht
    by_cases hts : t = s
    · subst hts; exact ⟨hb, rfl, he⟩
    · simp only [upd_ne _ _ _ _ hts] at ht
      rw [eq_other s t hts] at ht
      exact absurd ht ho
  · intro c hc
    obtain ⟨n, h1, h2⟩ := h.permits c hc
    refine ⟨n, h1, fun t => ?_⟩
    have := h2 s
    have e1 : fl st s = 0 := by
      simp only [fl, flag, if_neg hs, if_neg ho]
    have e2 : fl { st with polling := some s, task := upd st.task s .flying } s = 1 := by
      simp only [fl, upd_same, upd_other, flag, if_neg ho]
      rfl
    have e3 : fl { st with polling := some s, task := upd st.task s .flying } t = 1 := by
      by_cases hts : t = s
      · subst hts; exact e2
      · rw [eq_other s t hts, fl_other]; exact e2
    rw [e3]
    rw [e1] at this
    show n + st.buffer.length + 1 + granted st.queued + 0 = c
    omega

theorem inv_pollMore (cap : Option Nat) (items : List α) (st : St α) (s : Side) (h : Inv 0 cap items st) (hs : st.task s ≠ .flying) (hb : st.buffered s = 0)
    (he : st.exhausted = false) : Inv 0 cap items (pollMore st s) := by
  obtain ⟨hsame, hsame2, htask2⟩ := acquire_same st s
  unfold pollMore
  cases ha : acquire st s with
  | mk o st2 =>
    cases o with
    | none =>
      have hbl := (inv_blocked cap items st s h (by rw [ha])).2.2.2
      rw [ha] at hbl htask2
      simp only at hbl htask2 ⊢
      exact inv_task 0 cap items st2 s .asleep hbl (by rw [htask2]; exact hs) (by decide)
    | some st' =>
      have hi := inv_acquire cap items st st' s h (by rw [ha])
      obtain ⟨hsm, htk⟩ := hsame st' (by rw [ha])
      simp only
      split
      · apply inv_release
        have := inv_task 1 cap items st' s .asleep hi (by rw [htk]; exact hs) (by decide)
        exact ⟨this.panicked, this.parts, this.one, this.total, this.flying, this.exhausted, this.ended, this.waiting, this.permits, this.unbounded⟩
      next hp => exact (inv_takeInner cap items st' s hi (by rw [htk]; exact hs) (by rw [hsm.buffered]; exact hb) (by rw [hsm.exhausted]; exact he) hp).1

theorem inv_start (cap : Option Nat) (items : List α) (st : St α) (s : Side) (h : Inv 0 cap items st) (hs : st.task s ≠ .flying) : Inv 0 cap items (start st s) := by
  unfold start
  split
  next hb => exact inv_popBuffer cap items st s h hs hb
  next hb =>
    split
    next he =>
      have := inv_task 0 cap items st s .awake h hs (by decide)
      refine ⟨this.panicked, this.parts, this.one, this.total, this.flying, this.exhausted, ?_, this.waiting, this.permits, this.unbounded⟩
      intro t ht
      by_cases hts : t = s
      · subst hts; exact ⟨he, Nat.eq_zero_of_not_pos hb⟩
      · simp only [upd_ne _ _ _ _ hts] at ht
        exact h.ended t ht
    next he => exact inv_pollMore cap items st s h hs (by omega) (by simpa using he)

/-- A poll ends: its permit is held apart. -/
theorem inv_land (cap : Option Nat) (items : List α) (st : St α) (s : Side) (v : Task) (h : Inv 0 cap items st) (hs : st.task s = .flying) (hv : v ≠ .flying) :
    Inv 1 cap items { st with task := upd st.task s v } ∧ st.task s.other ≠ .flying := by
  have ho : st.task s.other ≠ .flying := by
    intro hf
    have h1 := (h.flying s hs).2.1
    have h2 := (h.flying s.other hf).2.1
    rw [h1, Option.some.injEq] at h2
    exact other_ne s h2.symm
  refine ⟨⟨h.panicked, h.parts, h.one, h.total, ?_, h.exhausted, h.ended, h.waiting, ?_, h.unbounded⟩, ho⟩
  · intro t ht
    by_cases hts : t = s
    · subst hts; simp only [upd_same] at ht; exact absurd ht hv
    · simp only [upd_ne _ _ _ _ hts] at ht
      rw [eq_other s t hts] at ht
      exact absurd ht ho
  · intro c hc
    obtain ⟨n, h1, h2⟩ := h.permits c hc
    refine ⟨n, h1, fun t => ?_⟩
    have := h2 s
    have e1 : fl st s = 1 := by simp only [fl, hs, flag, if_neg ho]; rfl
    have e2 : fl { st with task := upd st.task s v } s = 0 := by
      simp only [fl, upd_same, upd_other, flag, if_neg ho, if_neg hv]
    have e3 : fl { st with task := upd st.task s v } t = 0 := by
      by_cases hts : t = s
      · subst hts; exact e2
      · rw [eq_other s t hts, fl_other]; exact e2
    rw [e3]
    rw [e1] at this
    show n + st.buffer.length + 0 + granted st.queued + 1 = c
    omega

theorem inv_finish (cap : Option Nat) (items : List α) (st : St α) (s : Side) (ready : Bool) (h : Inv 0 cap items st) (hs : st.task s = .flying) :
    Inv 0 cap items (finish st s ready) := by
  obtain ⟨hb, hp, he⟩ := h.flying s hs
  cases ready with
  | false =>
    have := (inv_land cap items st s .asleep h hs (by decide)).1
    exact inv_release cap items _ ⟨this.panicked, this.parts, this.one, this.total, this.flying, this.exhausted, this.ended, this.waiting, this.permits, this.unbounded⟩
  | true =>
    obtain ⟨hl, ho⟩ := inv_land cap items st s .awake h hs (by decide)
    have hnf : ∀ t, upd st.task s .awake t ≠ .flying := by
      intro t
      by_cases hts : t = s
      · subst hts; simp
      · rw [upd_ne _ _ _ _ hts, eq_other s t hts]; exact ho
    cases hr : st.rest with
    | nil =>
      have heq : finish st s true = release (wakeAll { st with exhausted := true, polling := none, waker := none, ended := upd st.ended s true, task := upd st.task s .awake } st.waker) := by
        simp only [finish, hr]
      rw [heq]
      apply inv_release
      apply inv_wakeAll
      refine ⟨hl.panicked, hl.parts, hl.one, hl.total, fun t ht => absurd ht (hnf t), fun _ => hr, ?_, hl.waiting, hl.permits, hl.unbounded⟩
      intro t ht
      by_cases hts : t = s
      · subst hts; exact ⟨rfl, hb⟩
      · simp only [upd_ne _ _ _ _ hts] at ht
        exact ⟨rfl, (h.ended t ht).2⟩
    | cons y r =>
      have heq : finish st s true = wakeAll { st with
          rest := r, polling := none, waker := none, buffered := upd st.buffered s.other (st.buffered s.other + 1), buffer := st.buffer ++ [y],
          out := upd st.out s (st.out s ++ [y]), task := upd st.task s .awake } st.waker := by
        simp only [finish, hr]
      rw [heq]
      apply inv_wakeAll
      have hoo : s.other.other = s := by cases s <;> rfl
      have htot := h.total s
      refine ⟨hl.panicked, ?_, ?_, ?_, fun t ht => absurd ht (hnf t), ?_, ?_, hl.waiting, ?_, hl.unbounded⟩
      · obtain ⟨done, h1, h2⟩ := h.parts
        refine ⟨done ++ [y], by rw [h1, hr]; simp, fun t => ?_⟩
        by_cases hts : t = s
        · subst hts
          have := h2 t
          rw [if_pos hb, List.append_nil] at this
          simp only [upd_same, upd_other']
          rw [if_pos hb, List.append_nil, this]
        · rw [eq_other s t hts]
          have := h2 s.other
          simp only [upd_same, upd_other]
          rw [if_neg (by omega), ← this, List.append_assoc]
          congr 1
          split
          next h0 =>
            have : st.buffer = [] := List.length_eq_zero_iff.mp (by omega)
            rw [this]
          next => rfl
      · intro t
        by_cases hts : t = s
        · subst hts; left; simp only [upd_other']; exact hb
        · right; rw [eq_other s t hts, hoo]; simp only [upd_other']; exact hb
      · intro t
        by_cases hts : t = s
        · subst hts
          simp only [upd_same, upd_other', List.length_append, List.length_cons, List.length_nil]
          omega
        · rw [eq_other s t hts]
          simp only [upd_same, upd_other', hoo, List.length_append, List.length_cons, List.length_nil]
          omega
      · intro h'; rw [he] at h'; exact nomatch h'
      · intro t ht
        have := (h.ended t ht).1
        rw [he] at this; exact nomatch this
      · intro c hc
        obtain ⟨n, h1, h2⟩ := hl.permits c hc
        refine ⟨n, h1, fun t => ?_⟩
        have := h2 t
        simp only [List.length_append, List.length_cons, List.length_nil, fl] at this ⊢
        omega

theorem inv_step (cap : Option Nat) (items : List α) (st st' : St α) (e : Event) (h : Inv 0 cap items st) (hstep : step st e = some st') : Inv 0 cap items st' := by
  cases e with
  | start s =>
    simp only [step] at hstep
    split at hstep
    · exact nomatch hstep
    next hn =>
      rw [Option.some.injEq] at hstep
      subst hstep
      exact inv_start cap items st s h (fun hf => hn (Or.inl hf))
  | finish s ready =>
    simp only [step] at hstep
    split at hstep
    next hf =>
      rw [Option.some.injEq] at hstep
      subst hstep
      exact inv_finish cap items st s ready h hf
    · exact nomatch hstep
  | innerWake =>
    simp only [step, Option.some.injEq] at hstep
    subst hstep
    apply inv_wakeAll
    exact ⟨h.panicked, h.parts, h.one, h.total, h.flying, h.exhausted, h.ended, h.waiting, h.permits, h.unbounded⟩
  | drop s =>
    simp only [step] at hstep
    split at hstep
    · exact nomatch hstep
    next hn =>
      rw [Option.some.injEq] at hstep
      subst hstep
      exact inv_task 0 cap items st s .gone h hn (by decide)

end Verif.Shared
