import Verif.Sched.QueueLemmas

/-!
# C35: the I/O queue respects its budgets and completes everything
-/
namespace Verif.Sched

/-- The events the scheduler and the callers waiting for their data bring about by themselves (no new request, no
dropped future, no shutdown). -/
def isSys : QEvent → Bool
  | .check _ | .wake | .iopDone _ | .deliver _ | .respond _ | .consume _ => true
  | .begin _ _ | .push _ _ | .dropFuture _ | .close => false

/-- Nothing can happen by itself any more. -/
def Quiescent (s : QState) : Prop := ∀ e, isSys e = true → qstep s e = none

/-- C35, full statement, for a scheduler that may run at least one read: in every reachable state
1. at most `capacity` reads run;
2. the unconsumed bytes of all but one highest-priority request fit the buffer;
3. a read is started only when no pending one has a smaller priority number;
4. when nothing runs and no data waits to be consumed, pending reads do not wait for ever. -/
def C35_statement : Prop :=
  ∀ (capacity buffer : Nat) (s : QState), 0 < capacity → Reachable capacity buffer s →
    s.running.length ≤ capacity ∧
    (∀ b, (∃ t ∈ unconsumed s, t.batch = b) →
      (∀ t ∈ unconsumed s, t.batch = b → ∀ u ∈ unconsumed s, t.prio ≤ u.prio) →
      sumBytes ((unconsumed s).filter (fun t => decide (t.batch ≠ b))) ≤ buffer) ∧
    (∀ top s', qstep s (.check top) = some s' → ∀ t ∈ s'.running, t ∉ s.running → ∀ x ∈ s.pending, t.prio ≤ x.prio) ∧
    (s.running = [] → s.finishing = [] → s.held = [] → Quiescent s → s.pending = [])

/-! ## What fails -/

/-- Three requests of one read each, each more urgent than those already running: all are admitted over the budget. -/
def overTrace : List QEvent :=
  [.begin 5 1, .push 0 10, .check (some ⟨0, 0, 5, 10⟩), .begin 4 1, .push 1 10, .check (some ⟨1, 1, 4, 10⟩),
   .begin 3 1, .push 2 10, .check (some ⟨2, 2, 3, 10⟩)]

def overState : QState :=
  { qinit 4 10 with
    iopsAvail := 1
    bytesAvail := -20
    inFlight := [3, 4, 5]
    permit := true
    running := [⟨2, 2, 3, 10⟩, ⟨1, 1, 4, 10⟩, ⟨0, 0, 5, 10⟩]
    batches := [⟨5, 1, 1, 0, 0, false, .live⟩, ⟨4, 1, 1, 0, 0, false, .live⟩, ⟨3, 1, 1, 0, 0, false, .live⟩]
    nextId := 3 }

theorem overState_reachable : Reachable 4 10 overState := ⟨overTrace, by decide⟩

/-- The budget is 10, the requests other than the most urgent one hold 20. -/
theorem C35_violated : ¬ C35_statement := by
  intro h
  have := ((h 4 10 overState (by decide) overState_reachable).2.1) 2 (by decide) (by decide)
  revert this
  decide

/-- A caller drops a future after its data was read: the budget it took is never given back, and the next read, of 5
bytes, waits for ever although the scheduler is idle. -/
def stallTrace : List QEvent :=
  [.begin 0 1, .push 0 10, .check (some ⟨0, 0, 0, 10⟩), .iopDone ⟨0, 0, 0, 10⟩, .deliver ⟨0, 0, 0, 10⟩, .dropFuture 0,
   .respond 0, .begin 1 1, .push 1 5, .check (some ⟨1, 1, 1, 5⟩), .wake, .check (some ⟨1, 1, 1, 5⟩)]

def stallState : QState :=
  { qinit 4 10 with
    bytesAvail := 0
    pending := [⟨1, 1, 1, 5⟩]
    inFlight := [0]
    loop := .parked
    leaked := [⟨0, 0, 0, 10⟩]
    batches := [⟨0, 1, 1, 1, 10, true, .gone⟩, ⟨1, 1, 1, 0, 0, false, .live⟩]
    nextId := 2 }

theorem stallState_reachable : Reachable 4 10 stallState := ⟨stallTrace, by decide⟩

theorem stallState_quiescent : Quiescent stallState := by
  intro e he
  cases e with
  | begin => cases he
  | push => cases he
  | dropFuture => cases he
  | close => cases he
  | check t => cases t <;> rfl
  | wake => rfl
  | iopDone t => rfl
  | deliver t => rfl
  | respond b =>
    match b with
    | 0 => rfl
    | 1 => rfl
    | n + 2 => rfl
  | consume b =>
    match b with
    | 0 => rfl
    | 1 => rfl
    | n + 2 => rfl

/-- C35 clause 4 fails when a future was dropped. -/
theorem C35_dropped_future_stalls : ∃ s, Reachable 4 10 s ∧ s.running = [] ∧ s.finishing = [] ∧ s.held = [] ∧
    Quiescent s ∧ s.pending ≠ [] :=
  ⟨stallState, stallState_reachable, rfl, rfl, rfl, stallState_quiescent, by decide⟩

/-! ## What holds -/

/-- Clause 1: at most `capacity` reads run, and the counter is exact. -/
theorem C35_iops_limit_partial (capacity buffer : Nat) (s : QState) (h : Reachable capacity buffer s) :
    s.running.length ≤ capacity ∧ s.iopsAvail = capacity - s.running.length := by
  have := (inv_reachable h).iops
  omega

/-- The byte counter is exact, also when it is negative. -/
theorem C35_bytes_exact_partial (capacity buffer : Nat) (s : QState) (h : Reachable capacity buffer s) :
    s.bytesAvail = (buffer : Int) - (sumBytes (unconsumed s) : Int) := by
  have := (inv_reachable h).bytes
  omega

/-- Clause 3. -/
theorem C35_priority_order_partial (s s' : QState) (top : Option Task) (h : qstep s (.check top) = some s') :
    ∀ t ∈ s'.running, t ∉ s.running → top = some t ∧ t ∈ s.pending ∧ ∀ x ∈ s.pending, t.prio ≤ x.prio := by
  intro t ht hn
  simp only [qstep, stepCheck] at h
  split at h
  · split at h
    · split at h
      · split at h <;> (cases h; exact absurd ht hn)
      · cases h
    · rename_i u
      split at h
      · rename_i hu
        split at h
        · cases h
          have ht : t ∈ u :: s.running := ht
          cases ht with
          | head => exact ⟨rfl, (isTop_iff s t).mp hu⟩
          | tail _ ht => exact absurd ht hn
        · split at h <;> (cases h; exact absurd ht hn)
      · cases h
  · cases h

/-- Clause 2, each single decision: a read is started only if the budget covers it or no unconsumed read is more
urgent. -/
theorem C35_admission_partial (capacity buffer : Nat) (s s' : QState) (top : Option Task)
    (hr : Reachable capacity buffer s) (h : qstep s (.check top) = some s') :
    ∀ t ∈ s'.running, t ∉ s.running →
      sumBytes (unconsumed s) + t.bytes ≤ buffer ∨ ∀ u ∈ unconsumed s, t.prio ≤ u.prio := by
  intro t ht hn
  have hi := inv_reachable hr
  have hb := hi.bytes
  simp only [qstep, stepCheck] at h
  split at h
  · split at h
    · split at h
      · split at h <;> (cases h; exact absurd ht hn)
      · cases h
    · rename_i u
      split at h
      · split at h
        · rename_i hc
          cases h
          have ht : t ∈ u :: s.running := ht
          cases ht with
          | head =>
            unfold canDeliver at hc
            split at hc
            · cases hc
            · split at hc
              · rename_i hp
                right
                intro x hx
                have := minInFlight_le s.inFlight hi.sorted x.prio
                  (hi.flight.mem_iff.mpr (List.mem_map_of_mem (f := Task.prio) hx))
                omega
              · split at hc
                · cases hc
                · left; omega
          | tail _ ht => exact absurd ht hn
        · split at h <;> (cases h; exact absurd ht hn)
      · cases h
  · cases h

/-- The reads a schedule starts although the budget does not cover them. -/
def overBudget : QState → List QEvent → List Task
  | _, [] => []
  | s, e :: es =>
    let rest := (match qstep s e with
      | none => []
      | some s' => overBudget s' es)
    match e with
    | .check (some t) => if canDeliver s t = true ∧ s.bytesAvail < (t.bytes : Int) then t :: rest else rest
    | _ => rest

theorem sumBytes_filter_le (p : Task → Bool) (l : List Task) : sumBytes (l.filter p) ≤ sumBytes l := by
  induction l with
  | nil => simp
  | cons a l ih =>
    rw [List.filter_cons]
    split
    · simp only [sumBytes_cons]; omega
    · simp only [sumBytes_cons]; omega

theorem sumBytes_filter_mono (p q : Task → Bool) (l : List Task) (h : ∀ t ∈ l, p t = true → q t = true) :
    sumBytes (l.filter p) ≤ sumBytes (l.filter q) := by
  induction l with
  | nil => simp
  | cons a l ih =>
    have := ih (fun t ht => h t (List.mem_cons_of_mem _ ht))
    rw [List.filter_cons, List.filter_cons]
    by_cases hp : p a = true
    · rw [if_pos hp, if_pos (h a List.mem_cons_self hp)]
      simp only [sumBytes_cons]; omega
    · rw [if_neg hp]
      split
      · simp only [sumBytes_cons]; omega
      · exact this

/-- Every event but a start only removes unconsumed reads. -/
theorem unconsumed_step {capacity buffer : Nat} {s s' : QState} {e : QEvent} (hi : Inv capacity buffer s)
    (h : qstep s e = some s') :
    (∃ rest, (unconsumed s).Perm (rest ++ unconsumed s')) ∨
    (∃ t, e = .check (some t) ∧ canDeliver s t = true ∧ s' = startTask s t) := by
  cases e with
  | begin p n =>
    simp only [qstep, stepBegin] at h
    split at h
    · cases h; exact Or.inl ⟨[], List.Perm.refl _⟩
    · cases h
  | push b n =>
    simp only [qstep, stepPush] at h
    split at h
    · cases h
    · split at h
      · cases h; exact Or.inl ⟨[], List.Perm.refl _⟩
      · cases h
  | check top =>
    simp only [qstep, stepCheck] at h
    split at h
    · split at h
      · split at h
        · split at h <;> (cases h; exact Or.inl ⟨[], List.Perm.refl _⟩)
        · cases h
      · rename_i t
        split at h
        · split at h
          · rename_i hc
            cases h; exact Or.inr ⟨t, rfl, hc, rfl⟩
          · split at h <;> (cases h; exact Or.inl ⟨[], List.Perm.refl _⟩)
        · cases h
    · cases h
  | wake =>
    simp only [qstep, stepWake] at h
    split at h
    · cases h; exact Or.inl ⟨[], List.Perm.refl _⟩
    · cases h
  | iopDone t =>
    simp only [qstep, stepIopDone] at h
    split at h
    · rename_i ht
      cases h
      refine Or.inl ⟨[], ?_⟩
      show (unconsumed s).Perm (s.running.erase t ++ (t :: s.finishing) ++ s.held ++ s.leaked)
      unfold unconsumed
      apply List.Perm.append_right
      apply List.Perm.append_right
      exact ((List.perm_cons_erase ht).append_right _).trans (by
        rw [List.cons_append]; exact List.perm_middle.symm)
    · cases h
  | deliver t =>
    simp only [qstep, stepDeliver] at h
    split at h
    · rename_i ht
      split at h
      · cases h
      · cases h
        refine Or.inl ⟨[], ?_⟩
        show (unconsumed s).Perm (s.running ++ s.finishing.erase t ++ (t :: s.held) ++ s.leaked)
        unfold unconsumed
        apply List.Perm.append_right
        rw [List.append_assoc, List.append_assoc]
        apply List.Perm.append_left
        exact ((List.perm_cons_erase ht).append_right _).trans (by
          rw [List.cons_append]; exact List.perm_middle.symm)
    · cases h
  | respond b =>
    simp only [qstep, stepRespond] at h
    split at h
    · cases h
    · split at h
      · split at h
        · cases h
          exact Or.inl ⟨[], throwAway_perm s b _⟩
        · cases h; exact Or.inl ⟨[], List.Perm.refl _⟩
      · cases h
  | consume b =>
    simp only [qstep, stepConsume] at h
    split at h
    · cases h
    · rename_i B hB
      split at h
      · rename_i hr
        have hc := (consume_split hi hB hr).1
        split at h
        · cases h; exact Or.inl ⟨[], List.Perm.refl _⟩
        · cases h; exact Or.inl ⟨_, hc⟩
      · cases h
  | dropFuture b =>
    simp only [qstep, stepDrop] at h
    split at h
    · cases h
    · split at h
      · split at h
        · cases h
        · cases h; exact Or.inl ⟨[], List.Perm.refl _⟩
      · cases h
        exact Or.inl ⟨[], throwAway_perm s b _⟩
      · cases h
  | close =>
    simp only [qstep, stepClose] at h
    split at h
    · cases h
    · cases h; exact Or.inl ⟨[], List.Perm.refl _⟩

theorem over_bound_from (capacity buffer : Nat) (s s' : QState) (es : List QEvent) (G : List Task)
    (hi : Inv capacity buffer s) (hg : sumBytes ((unconsumed s).filter (fun t => decide (t ∉ G))) ≤ buffer)
    (h : qrun s es = some s') :
    sumBytes ((unconsumed s').filter (fun t => decide (t ∉ G ++ overBudget s es))) ≤ buffer := by
  induction es generalizing s G with
  | nil =>
    cases h
    simpa [overBudget] using hg
  | cons e es ih =>
    simp only [qrun] at h
    cases he : qstep s e with
    | none => rw [he] at h; cases h
    | some m =>
      rw [he] at h
      have h : qrun m es = some s' := h
      have hm := inv_step hi he
      rcases unconsumed_step hi he with ⟨rest, hp⟩ | ⟨t, rfl, hc, rfl⟩
      · have hgm : sumBytes ((unconsumed m).filter (fun t => decide (t ∉ G))) ≤ buffer := by
          rw [sumBytes_perm (hp.filter _), List.filter_append, sumBytes_append] at hg
          omega
        have hfin : ∀ X : List Task, (∀ x ∈ overBudget m es, x ∈ X) →
            sumBytes ((unconsumed s').filter (fun t => decide (t ∉ G ++ X))) ≤ buffer := by
          intro X hX
          refine Nat.le_trans (sumBytes_filter_mono _ _ _ ?_) (ih m G hm hgm h)
          intro x _ hx
          simp only [decide_eq_true_eq, List.mem_append, not_or] at hx ⊢
          exact ⟨hx.1, fun hm => hx.2 (hX x hm)⟩
        apply hfin
        intro x hx
        unfold overBudget
        simp only [he]
        split
        · split
          · exact List.mem_cons_of_mem _ hx
          · exact hx
        · exact hx
      · have hb := hi.bytes
        by_cases hover : s.bytesAvail < (t.bytes : Int)
        · have e1 : overBudget s (.check (some t) :: es) = t :: overBudget (startTask s t) es := by
            simp only [overBudget, he]
            rw [if_pos ⟨hc, hover⟩]
          rw [e1]
          have := ih (startTask s t) (G ++ [t]) hm (by
            rw [unconsumed_start, List.filter_cons, if_neg (by simp)]
            refine Nat.le_trans (sumBytes_filter_mono _ _ _ ?_) hg
            intro x _ hx
            simp only [decide_eq_true_eq, List.mem_append, not_or] at hx ⊢
            exact hx.1) h
          rw [List.append_assoc] at this
          exact this
        · have e1 : overBudget s (.check (some t) :: es) = overBudget (startTask s t) es := by
            simp only [overBudget, he]
            rw [if_neg (fun x => hover x.2)]
          rw [e1]
          apply ih (startTask s t) G hm _ h
          refine Nat.le_trans (sumBytes_filter_le _ _) ?_
          rw [unconsumed_start, sumBytes_cons]
          omega

/-- Clause 2, over whole schedules: the unconsumed bytes of the reads that were admitted within the budget never exceed
the buffer (the others were, when started, at least as urgent as everything unconsumed: `C35_admission_partial`). -/
theorem C35_buffer_partial (capacity buffer : Nat) (es : List QEvent) (s : QState)
    (h : qrun (qinit capacity buffer) es = some s) :
    sumBytes ((unconsumed s).filter (fun t => decide (t ∉ overBudget (qinit capacity buffer) es))) ≤ buffer := by
  have := over_bound_from capacity buffer (qinit capacity buffer) s es [] (inv_init _ _) (by
    simp [unconsumed, qinit]) h
  simpa using this

example : overBudget (qinit 4 10) overTrace = [⟨1, 1, 4, 10⟩, ⟨2, 2, 3, 10⟩] := by decide

/-- Giving back the budget never hits `unreachable!()`. -/
theorem C35_no_panic (capacity buffer : Nat) (s : QState) (h : Reachable capacity buffer s) : s.panicked = false :=
  (inv_reachable h).fine

/-- No read is in two places: pending, running or read. -/
theorem C35_no_duplicates (capacity buffer : Nat) (s : QState) (h : Reachable capacity buffer s) :
    ((s.pending ++ s.running ++ s.finishing ++ s.held ++ s.leaked).map Task.id).Nodup := by
  have := (inv_reachable h).ids
  simpa [unconsumed, List.append_assoc] using this

/-- Every request is complete when it is answered: all its reads were submitted and run, none is pending or running,
and the caller gives back exactly their bytes. -/
theorem C35_answer_complete (capacity buffer : Nat) (s : QState) (h : Reachable capacity buffer s) (b : Nat) (B : Batch)
    (hB : s.batches[b]? = some B) (hr : B.phase = .ready) :
    B.pushed = B.total ∧ (∀ t ∈ s.pending ++ s.running ++ s.finishing, t.batch ≠ b) ∧
    (s.held.filter (fun t => decide (t.batch = b))).length = B.total ∧
    sumBytes (s.held.filter (fun t => decide (t.batch = b))) = B.numBytes := by
  have hi := inv_reachable h
  have hb := hi.batch b B hB
  have hg : B.phase ≠ .gone := by rw [hr]; exact (fun e => nomatch e)
  have hcc := complete_counts hb hg (hb.ready hr)
  have ho := hb.opened hg
  refine ⟨hcc.1, ?_, ?_, ho.2.2⟩
  · intro t ht
    rcases List.mem_append.mp ht with ht | ht
    · rcases List.mem_append.mp ht with ht | ht
      · exact cnt_zero.mp hcc.2.1 t ht
      · exact cnt_zero.mp hcc.2.2.1 t ht
    · exact cnt_zero.mp hcc.2.2.2 t ht
  · rw [← List.countP_eq_length_filter]
    have := hb.ready hr
    have h1 : s.held.countP (fun t => decide (t.batch = b)) = B.delivered := ho.2.1
    omega

/-! ## Nothing stalls -/

/-- No future was dropped and no submission is half done. -/
def Settled (s : QState) : Prop :=
  s.leaked = [] ∧ ∀ B ∈ s.batches, B.dropped = false ∧ B.pushed = B.total

/-- Clause 4 and "no request is lost": when futures are not dropped, the scheduler stops by itself only after every
request was read, answered and consumed. -/
theorem C35_quiescent_partial (capacity buffer : Nat) (s : QState) (hc : 0 < capacity) (h : Reachable capacity buffer s)
    (hset : Settled s) (hq : Quiescent s) :
    s.pending = [] ∧ s.running = [] ∧ s.finishing = [] ∧ s.held = [] ∧ ∀ B ∈ s.batches, B.phase = .gone := by
  have hi := inv_reachable h
  have hrun : s.running = [] := by
    cases hr : s.running with
    | nil => rfl
    | cons t l =>
      have := hq (.iopDone t) rfl
      simp [qstep, stepIopDone, hr] at this
  have hfin : s.finishing = [] := by
    cases hr : s.finishing with
    | nil => rfl
    | cons t l =>
      obtain ⟨B, hB, _⟩ := hi.known t (by simp [unconsumed, hr])
      have := hq (.deliver t) rfl
      simp [qstep, stepDeliver, hr, hB] at this
  -- no request is complete and unanswered, none is answered and unconsumed
  have hlive : ∀ (b : Nat) (B : Batch), s.batches[b]? = some B → B.phase = .gone ∨ B.phase = .live ∧ B.delivered < B.total := by
    intro b B hB
    have hb := hi.batch b B hB
    cases hp : B.phase with
    | gone => exact Or.inl rfl
    | live =>
      refine Or.inr ⟨rfl, ?_⟩
      have ho := hb.opened (by rw [hp]; exact (fun e => nomatch e))
      have hle := hb.le
      apply Classical.byContradiction
      intro hlt
      have hd : B.delivered = B.total := by omega
      have := hq (.respond b) rfl
      simp only [qstep, stepRespond, hB, hp, hd, and_self, if_true] at this
      split at this <;> cases this
    | ready =>
      have := hq (.consume b) rfl
      simp only [qstep, stepConsume, hB, hp, if_true] at this
      split at this <;> cases this
  have hpend : s.pending = [] := by
    apply Classical.byContradiction
    intro hne
    obtain ⟨m, hm1, hm2⟩ := exists_min s.pending hne
    have hloop : s.loop = .parked ∧ s.permit = false := by
      cases hl : s.loop with
      | checking =>
        exfalso
        have := hq (.check (some m)) rfl
        simp only [qstep, stepCheck, hl, if_true, (isTop_iff s m).mpr ⟨hm1, hm2⟩] at this
        split at this
        · cases this
        · split at this <;> cases this
      | stopped => exact absurd (hi.stopped hl).1 hne
      | parked =>
        refine ⟨rfl, ?_⟩
        cases hp : s.permit with
        | false => rfl
        | true =>
          have := hq .wake rfl
          simp [qstep, stepWake, hl, hp] at this
    rcases hi.parked hloop.1 hloop.2 with hp | ⟨t, ht, hcd⟩
    · exact hne hp.1
    · obtain ⟨ht1, ht2⟩ := (isTop_iff s t).mp ht
      have hio := hi.iops
      rw [hrun] at hio
      have hio : s.iopsAvail = capacity := by simpa using hio
      unfold canDeliver at hcd
      rw [if_neg (by omega)] at hcd
      split at hcd
      · cases hcd
      · rename_i hlt
        -- some unconsumed read is more urgent than every pending one
        by_cases hfl : s.inFlight = []
        · rw [hfl] at hlt
          obtain ⟨B, hB, hpB⟩ := hi.known t (List.mem_append_left _ ht1)
          have h2 := (hi.batch _ B hB).prioLe
          have hlt : ¬ t.prio ≤ PMAX := hlt
          omega
        · have hmem := hi.flight.mem_iff.mp (minInFlight_mem s.inFlight hfl)
          obtain ⟨u, hu, hup⟩ := List.mem_map.mp hmem
          have huh : u ∈ s.held := by
            unfold unconsumed at hu
            rw [hrun, hfin, hset.1] at hu
            simpa using hu
          obtain ⟨B, hB, hpB⟩ := hi.known u (List.mem_append_right _ hu)
          have hb := hi.batch _ B hB
          rcases hlive _ B hB with hg | ⟨hl, hd⟩
          · exact cnt_zero.mp (hb.gone hg).2.2.2.2 u huh rfl
          · have ho := hb.opened (by rw [hl]; exact (fun e => nomatch e))
            have hpush := (hset.2 B (List.mem_of_getElem? hB)).2
            have hpos : 0 < cnt u.batch s.pending := by
              have h1 := ho.1
              rw [hrun, hfin] at h1
              have h2 : cnt u.batch [] = 0 := rfl
              omega
            obtain ⟨v, hv, hvb⟩ := cnt_pos hpos
            obtain ⟨C, hC, hpC⟩ := hi.known v (List.mem_append_left _ hv)
            rw [hvb, hB] at hC
            cases hC
            have := ht2 v hv
            omega
  have hgone : ∀ (b : Nat) (B : Batch), s.batches[b]? = some B → B.phase = .gone := by
    intro b B hB
    rcases hlive b B hB with hg | ⟨hl, hd⟩
    · exact hg
    · exfalso
      have ho := (hi.batch b B hB).opened (by rw [hl]; exact (fun e => nomatch e))
      have hpush := (hset.2 B (List.mem_of_getElem? hB)).2
      have h1 := ho.1
      rw [hpend, hrun, hfin] at h1
      have h2 : cnt b [] = 0 := rfl
      omega
  refine ⟨hpend, hrun, hfin, ?_, ?_⟩
  · cases hh : s.held with
    | nil => rfl
    | cons u l =>
      exfalso
      have hu : u ∈ s.held := by rw [hh]; exact List.mem_cons_self
      obtain ⟨B, hB, _⟩ := hi.known u (by simp [unconsumed, hu])
      have := (hi.batch _ B hB).gone (hgone _ B hB)
      exact cnt_zero.mp this.2.2.2.2 u hu rfl
  · intro B hB
    obtain ⟨b, hb⟩ := List.mem_iff_getElem?.mp hB
    exact hgone b B hb

/-! ## Every run ends -/

def batchWeight (B : Batch) : Nat :=
  match B.phase with
  | .live => 4
  | .ready => 3
  | .gone => 0

def batchesWeight (l : List Batch) : Nat := (l.map batchWeight).sum

/-- How much is left to do. -/
def work (s : QState) : Nat :=
  5 * s.pending.length + 4 * s.running.length + s.finishing.length + batchesWeight s.batches +
    (if s.permit then 2 else 0) + (if s.loop = .checking then 1 else 0)

theorem batchesWeight_set (l : List Batch) (b : Nat) (B B' : Batch) (h : l[b]? = some B) :
    batchesWeight (l.set b B') + batchWeight B = batchesWeight l + batchWeight B' := by
  induction l generalizing b with
  | nil => cases h
  | cons a l ih =>
    cases b with
    | zero =>
      simp at h
      subst h
      simp only [List.set_cons_zero, batchesWeight, List.map_cons, List.sum_cons]
      omega
    | succ b =>
      have := ih b (by simpa using h)
      simp only [List.set_cons_succ, batchesWeight, List.map_cons, List.sum_cons] at this ⊢
      omega

/-- Every event the system brings about by itself leaves less to do: no schedule goes on for ever without new
requests. -/
theorem C35_terminates (capacity buffer : Nat) (s s' : QState) (e : QEvent) (h : Reachable capacity buffer s)
    (he : isSys e = true) (hs : qstep s e = some s') : work s' < work s := by
  have hi := inv_reachable h
  cases e with
  | begin => cases he
  | push => cases he
  | dropFuture => cases he
  | close => cases he
  | check top =>
    simp only [qstep, stepCheck] at hs
    split at hs
    · rename_i hl
      have park : ∀ p : LPhase, p ≠ .checking → work { s with loop := p } < work s := by
        intro p hp
        simp only [work, hl, if_true, if_neg hp]
        omega
      split at hs
      · split at hs
        · split at hs
          · cases hs; exact park _ (fun e => nomatch e)
          · cases hs; exact park _ (fun e => nomatch e)
        · cases hs
      · rename_i t
        split at hs
        · rename_i ht
          have htm := ((isTop_iff s t).mp ht).1
          split at hs
          · cases hs
            have h1 := List.length_erase_of_mem htm
            have h2 := List.length_pos_of_mem htm
            have h3 : (startTask s t).pending.length = (s.pending.erase t).length := rfl
            have h4 : (startTask s t).running.length = s.running.length + 1 := rfl
            have h5 : (startTask s t).finishing = s.finishing := rfl
            have h6 : (startTask s t).batches = s.batches := rfl
            have h7 : (startTask s t).permit = s.permit := rfl
            have h8 : (startTask s t).loop = s.loop := rfl
            unfold work
            rw [h3, h4, h5, h6, h7, h8, h1]
            omega
          · split at hs
            · cases hs; exact park _ (fun e => nomatch e)
            · cases hs; exact park _ (fun e => nomatch e)
        · cases hs
    · cases hs
  | wake =>
    simp only [qstep, stepWake] at hs
    split at hs
    · rename_i hc
      cases hs
      simp [work, hc.1, hc.2]
    · cases hs
  | iopDone t =>
    simp only [qstep, stepIopDone] at hs
    split at hs
    · rename_i ht
      cases hs
      have h1 := List.length_erase_of_mem ht
      have h2 := List.length_pos_of_mem ht
      simp only [work, List.length_cons, h1, if_true]
      split <;> omega
    · cases hs
  | deliver t =>
    simp only [qstep, stepDeliver] at hs
    split at hs
    · rename_i ht
      split at hs
      · cases hs
      · rename_i B hB
        cases hs
        have h1 := List.length_erase_of_mem ht
        have h2 := List.length_pos_of_mem ht
        have h3 := batchesWeight_set s.batches t.batch B
          { B with delivered := B.delivered + 1, numBytes := B.numBytes + t.bytes } hB
        have h4 : batchWeight { B with delivered := B.delivered + 1, numBytes := B.numBytes + t.bytes } =
            batchWeight B := rfl
        simp only [work, h1]
        omega
    · cases hs
  | respond b =>
    simp only [qstep, stepRespond] at hs
    split at hs
    · cases hs
    · rename_i B hB
      split at hs
      · rename_i hc
        have hw : batchWeight B = 4 := by simp [batchWeight, hc.1]
        split at hs
        · cases hs
          have h3 := batchesWeight_set s.batches b B { B with phase := .gone } hB
          have h4 : batchWeight { B with phase := .gone } = 0 := rfl
          show 5 * s.pending.length + 4 * s.running.length + s.finishing.length +
            batchesWeight (s.batches.set b { B with phase := .gone }) + (if s.permit then 2 else 0) +
            (if s.loop = .checking then 1 else 0) < work s
          unfold work
          omega
        · cases hs
          have h3 := batchesWeight_set s.batches b B { B with phase := .ready } hB
          have h4 : batchWeight { B with phase := .ready } = 3 := rfl
          simp only [work]
          omega
      · cases hs
  | consume b =>
    have hs2 := hs
    simp only [qstep, stepConsume] at hs
    split at hs
    · cases hs
    · rename_i B hB
      split at hs
      · rename_i hr
        have hw : batchWeight B = 3 := by simp [batchWeight, hr]
        split at hs
        · have := (inv_step hi hs2).fine
          cases hs
          cases this
        · cases hs
          have h3 := batchesWeight_set s.batches b B { B with phase := .gone } hB
          have h4 : batchWeight { B with phase := .gone } = 0 := rfl
          simp only [work, if_true]
          split <;> omega
      · cases hs

theorem qrun_append (s : QState) (a b : List QEvent) : qrun s (a ++ b) = (qrun s a).bind (fun m => qrun m b) := by
  induction a generalizing s with
  | nil => rfl
  | cons e a ih =>
    simp only [List.cons_append, qrun]
    cases qstep s e with
    | none => rfl
    | some m => exact ih m

theorem reachable_run {capacity buffer : Nat} {s s' : QState} {es : List QEvent} (h : Reachable capacity buffer s)
    (hr : qrun s es = some s') : Reachable capacity buffer s' := by
  obtain ⟨es0, h0⟩ := h
  exact ⟨es0 ++ es, by rw [qrun_append, h0]; exact hr⟩

theorem reachable_step {capacity buffer : Nat} {s s' : QState} {e : QEvent} (h : Reachable capacity buffer s)
    (hr : qstep s e = some s') : Reachable capacity buffer s' :=
  reachable_run (es := [e]) h (by simp [qrun, hr])

theorem settled_set {l : List Batch} {b : Nat} {B B' : Batch} (h : ∀ B ∈ l, B.dropped = false ∧ B.pushed = B.total)
    (hB : l[b]? = some B) (h1 : B'.dropped = B.dropped) (h2 : B'.pushed = B.pushed) (h3 : B'.total = B.total) :
    ∀ C ∈ l.set b B', C.dropped = false ∧ C.pushed = C.total := by
  intro C hC
  rcases List.mem_or_eq_of_mem_set hC with hC | rfl
  · exact h C hC
  · rw [h1, h2, h3]
    exact h B (List.mem_of_getElem? hB)

theorem settled_step {s s' : QState} {e : QEvent} (h : Settled s) (he : isSys e = true) (hs : qstep s e = some s') :
    Settled s' := by
  cases e with
  | begin => cases he
  | push => cases he
  | dropFuture => cases he
  | close => cases he
  | check top =>
    simp only [qstep, stepCheck] at hs
    split at hs
    · split at hs
      · split at hs
        · split at hs <;> (cases hs; exact h)
        · cases hs
      · split at hs
        · split at hs
          · cases hs; exact h
          · split at hs <;> (cases hs; exact h)
        · cases hs
    · cases hs
  | wake =>
    simp only [qstep, stepWake] at hs
    split at hs
    · cases hs; exact h
    · cases hs
  | iopDone t =>
    simp only [qstep, stepIopDone] at hs
    split at hs
    · cases hs; exact h
    · cases hs
  | deliver t =>
    simp only [qstep, stepDeliver] at hs
    split at hs
    · split at hs
      · cases hs
      · rename_i B hB
        cases hs
        exact ⟨h.1, settled_set h.2 hB rfl rfl rfl⟩
    · cases hs
  | respond b =>
    simp only [qstep, stepRespond] at hs
    split at hs
    · cases hs
    · rename_i B hB
      split at hs
      · split at hs
        · rename_i hd
          rw [(h.2 B (List.mem_of_getElem? hB)).1] at hd
          cases hd
        · cases hs
          exact ⟨h.1, settled_set h.2 hB rfl rfl rfl⟩
      · cases hs
  | consume b =>
    simp only [qstep, stepConsume] at hs
    split at hs
    · cases hs
    · rename_i B hB
      split at hs
      · split at hs
        · cases hs; exact h
        · cases hs
          exact ⟨h.1, settled_set h.2 hB rfl rfl rfl⟩
      · cases hs

/-- Whatever the schedule: once no request is being submitted and no future is dropped, at most `work s` events happen,
and when they have happened every request was read, answered and consumed. -/
theorem C35_every_schedule_completes_partial (capacity buffer : Nat) (s s' : QState) (es : List QEvent)
    (hc : 0 < capacity) (h : Reachable capacity buffer s) (hset : Settled s) (hsys : ∀ e ∈ es, isSys e = true)
    (hr : qrun s es = some s') :
    es.length + work s' ≤ work s ∧
    (Quiescent s' → s'.pending = [] ∧ s'.running = [] ∧ s'.finishing = [] ∧ s'.held = [] ∧
      ∀ B ∈ s'.batches, B.phase = .gone) := by
  have hgen : es.length + work s' ≤ work s ∧ Settled s' := by
    clear hc
    induction es generalizing s with
    | nil => cases hr; exact ⟨by simp, hset⟩
    | cons e es ih =>
      simp only [qrun] at hr
      cases he : qstep s e with
      | none => rw [he] at hr; cases hr
      | some m =>
        rw [he] at hr
        have hse := hsys e List.mem_cons_self
        have h1 := C35_terminates capacity buffer s m e h hse he
        have h2 := ih m (reachable_step h he) (settled_step hset hse he)
          (fun x hx => hsys x (List.mem_cons_of_mem _ hx)) hr
        refine ⟨?_, h2.2⟩
        have := h2.1
        simp only [List.length_cons]
        omega
  exact ⟨hgen.1, fun hq => C35_quiescent_partial capacity buffer s' hc (reachable_run h hr) hgen.2 hq⟩

/-- And such a schedule exists. -/
theorem C35_can_complete_partial (capacity buffer : Nat) (s : QState) (hc : 0 < capacity)
    (h : Reachable capacity buffer s) (hset : Settled s) :
    ∃ es s', (∀ e ∈ es, isSys e = true) ∧ qrun s es = some s' ∧ s'.pending = [] ∧ s'.running = [] ∧
      s'.finishing = [] ∧ s'.held = [] ∧ ∀ B ∈ s'.batches, B.phase = .gone := by
  generalize hn : work s = n
  induction n using Nat.strongRecOn generalizing s with
  | ind n ih =>
    by_cases hq : Quiescent s
    · exact ⟨[], s, by simp, rfl, C35_quiescent_partial capacity buffer s hc h hset hq⟩
    · have : ∃ e, isSys e = true ∧ qstep s e ≠ none := by
        apply Classical.byContradiction
        intro hno
        apply hq
        intro e he
        apply Classical.byContradiction
        exact fun hne => hno ⟨e, he, hne⟩
      obtain ⟨e, he, hne⟩ := this
      cases hs : qstep s e with
      | none => exact absurd hs hne
      | some m =>
        have hlt := C35_terminates capacity buffer s m e h he hs
        obtain ⟨es, s', h1, h2, h3⟩ := ih (work m) (by omega) m (reachable_step h hs) (settled_step hset he hs) rfl
        refine ⟨e :: es, s', ?_, ?_, h3⟩
        · intro x hx
          cases hx with
          | head => exact he
          | tail _ hx => exact h1 x hx
        · simp only [qrun, hs]
          exact h2

/-- A caller that consumes in priority order is never blocked by the byte budget, whatever else is unconsumed or was
leaked: if a read of a request at least as urgent as everything unconsumed is pending and a slot is free, the loop
starts a read (at least as urgent as it). -/
theorem C35_in_order_partial (capacity buffer : Nat) (s : QState) (h : Reachable capacity buffer s)
    (t : Task) (ht : t ∈ s.pending) (hmin : ∀ u ∈ unconsumed s, t.prio ≤ u.prio) (hrun : s.running.length < capacity)
    (top : Task) (htop : isTop s top = true) (hl : s.loop = .checking) :
    qstep s (.check (some top)) = some (startTask s top) ∧ top.prio ≤ t.prio := by
  have hi := inv_reachable h
  obtain ⟨h1, h2⟩ := (isTop_iff s top).mp htop
  have hio := hi.iops
  have hd : canDeliver s top = true := by
    unfold canDeliver
    rw [if_neg (by omega), if_pos]
    by_cases hfl : s.inFlight = []
    · rw [hfl]
      obtain ⟨B, hB, hpB⟩ := hi.known top (List.mem_append_left _ h1)
      have := (hi.batch _ B hB).prioLe
      show top.prio ≤ PMAX
      omega
    · have hmem := hi.flight.mem_iff.mp (minInFlight_mem s.inFlight hfl)
      obtain ⟨u, hu, hup⟩ := List.mem_map.mp hmem
      have := hmin u hu
      have := h2 t ht
      omega
  refine ⟨?_, h2 t ht⟩
  simp only [qstep, stepCheck, hl, htop, hd, if_true]

/-- No wake-up is lost: while the loop sleeps without a pending notification there is nothing it could start. -/
theorem C35_no_lost_wakeup (capacity buffer : Nat) (s : QState) (h : Reachable capacity buffer s)
    (hl : s.loop = .parked) (hp : s.permit = false) :
    (s.pending = [] ∧ s.doneSched = false) ∨
    ∃ t ∈ s.pending, (∀ x ∈ s.pending, t.prio ≤ x.prio) ∧
      (s.running.length = capacity ∨
        buffer < sumBytes (unconsumed s) + t.bytes ∧ ∃ u ∈ unconsumed s, u.prio < t.prio) := by
  have hi := inv_reachable h
  rcases hi.parked hl hp with h | ⟨t, ht, hc⟩
  · exact Or.inl h
  · right
    obtain ⟨h1, h2⟩ := (isTop_iff s t).mp ht
    refine ⟨t, h1, h2, ?_⟩
    have hio := hi.iops
    have hb := hi.bytes
    unfold canDeliver at hc
    split at hc
    · left; omega
    · split at hc
      · cases hc
      · rename_i hp2
        split at hc
        · right
          refine ⟨by omega, ?_⟩
          by_cases hfl : s.inFlight = []
          · exfalso
            rw [hfl] at hp2
            obtain ⟨B, hB, hpB⟩ := hi.known t (List.mem_append_left _ h1)
            have := (hi.batch _ B hB).prioLe
            have hp2 : ¬ t.prio ≤ PMAX := hp2
            omega
          · have hmem := hi.flight.mem_iff.mp (minInFlight_mem s.inFlight hfl)
            obtain ⟨u, hu, hup⟩ := List.mem_map.mp hmem
            exact ⟨u, hu, by omega⟩
        · cases hc

/-- scheduler.rs:709: the priority of a read is the base priority of the file, then the priority of the request. -/
def filePriority (base p : Nat) : Nat := base * 18446744073709551616 + p

/-- File priorities order first by file, then by request, and fit `u128`. -/
theorem C35_file_priority (b1 p1 b2 p2 : Nat) (h1 : p1 < 18446744073709551616) (h2 : p2 < 18446744073709551616)
    (hb : b1 < 18446744073709551616) :
    (filePriority b1 p1 < filePriority b2 p2 ↔ b1 < b2 ∨ b1 = b2 ∧ p1 < p2) ∧ filePriority b1 p1 ≤ PMAX := by
  unfold filePriority
  omega

/-! ## A schedule with two requests -/

/-- Two requests, the second more urgent, one slot, data consumed in order. -/
def twoTrace : List QEvent :=
  [.begin 7 2, .push 0 6, .push 0 8, .begin 3 1, .push 1 20, .check (some ⟨2, 1, 3, 20⟩), .iopDone ⟨2, 1, 3, 20⟩,
   .check (some ⟨0, 0, 7, 6⟩), .wake, .deliver ⟨2, 1, 3, 20⟩, .respond 1]

def twoState : QState :=
  { qinit 1 10 with
    bytesAvail := -10
    pending := [⟨1, 0, 7, 8⟩, ⟨0, 0, 7, 6⟩]
    inFlight := [3]
    permit := false
    loop := .checking
    held := [⟨2, 1, 3, 20⟩]
    batches := [⟨7, 2, 2, 0, 0, false, .live⟩, ⟨3, 1, 1, 1, 20, false, .ready⟩]
    nextId := 3 }

example : Reachable 1 10 twoState ∧ Settled twoState := by
  refine ⟨⟨twoTrace, by decide⟩, rfl, by decide⟩

/-- The rest of it: the answer is consumed, then the two reads of the first request run one after the other. -/
example : (qrun twoState [.consume 1, .check (some ⟨0, 0, 7, 6⟩), .iopDone ⟨0, 0, 7, 6⟩, .check (some ⟨1, 0, 7, 8⟩),
    .deliver ⟨0, 0, 7, 6⟩, .iopDone ⟨1, 0, 7, 8⟩, .deliver ⟨1, 0, 7, 8⟩, .respond 0, .consume 0, .check none, .wake,
    .check none]).map (fun s => (s.pending, s.running, s.bytesAvail, s.inFlight, s.loop)) =
    some ([], [], 10, [], .parked) := by decide

end Verif.Sched
