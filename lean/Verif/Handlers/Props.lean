import Verif.Handlers.Lemmas
/-!
# C21: commit handlers — at most one winner, versions never change
-/
namespace Verif.Handlers

/-- States reached by any schedule of any number of writers, with faults and crashes (`Reach`), and
the same without leases timing out (`ReachLeased`). -/
def Reach (k : Kind) (s : St) : Prop := ∃ as, s = runAll k init as
def ReachLeased (k : Kind) (s : St) : Prop := ∃ as, (∀ a ∈ as, a ≠ .expire) ∧ s = runAll k init as

/-! ## C21 -/

/-- C21 as claimed, for every handler: after any schedule, no two writers report success for one version,
and versions that are visible keep their content. -/
def C21_statement : Prop := ∀ k,
  (∀ s i j, Reach k s → s.pc i = .done .success → s.pc j = .done .success → s.ver i = s.ver j → i = j) ∧
  (∀ s as v i, Reach k s → s.final v = some i → (runAll k s as).final v = some i)

/-- C21 for the rename handler, for every schedule, fault and crash: at most one writer succeeds per
version; the winner's manifest is the version; a writer told "conflict" lost to another writer's manifest;
what is visible was written by a writer of that version and never changes. -/
theorem C21_rename (s : St) (hs : Reach .rename s) :
    (∀ i j, s.pc i = .done .success → s.pc j = .done .success → s.ver i = s.ver j → i = j) ∧
    (∀ i, s.pc i = .done .success → s.final (s.ver i) = some i) ∧
    (∀ i, s.pc i = .done .conflict → ∃ j, j ≠ i ∧ s.ver j = s.ver i ∧ s.final (s.ver i) = some j) ∧
    (∀ v i, s.final v = some i → s.ver i = v) ∧
    (∀ as v i, s.final v = some i → (runAll .rename s as).final v = some i) := by
  obtain ⟨bs, rfl⟩ := hs
  have h := (rinv_runAll bs init rinv_init).1
  refine ⟨fun i j hi hj hv => ?_, h.succ, fun i hi => ?_, fun v i hv => (h.own v i hv).1,
    fun as v i hv => (rinv_runAll as _ h).2 v i hv⟩
  · have := h.succ i hi
    rw [hv, h.succ j hj] at this
    exact (Option.some.inj this).symm
  · obtain ⟨j, h1, h2⟩ := h.conf i hi
    exact ⟨j, h1, (h.own _ _ h2).1, h2⟩

/-- C21 for a lock, as long as leases do not time out.  Missing from the full claim: leases that time out
while the writer is still running. -/
theorem C21_lock_partial (s : St) (hs : ReachLeased .lock s) :
    (∀ i j, s.pc i = .done .success → s.pc j = .done .success → s.ver i = s.ver j → i = j) ∧
    (∀ i, s.pc i = .done .success → s.final (s.ver i) = some i) ∧
    (∀ i, s.pc i = .done .conflict → ∃ j, j ≠ i ∧ s.ver j = s.ver i ∧ s.final (s.ver i) = some j) ∧
    (∀ v i, s.final v = some i → s.ver i = v) ∧
    (∀ as v i, (∀ a ∈ as, a ≠ .expire) → s.final v = some i → (runAll .lock s as).final v = some i) := by
  obtain ⟨bs, hb, rfl⟩ := hs
  have h := (linv_runAll bs init linv_init hb).1
  refine ⟨fun i j hi hj hv => ?_, h.succ, fun i hi => ?_, fun v i hv => (h.own v i hv).1,
    fun as v i ha hv => (linv_runAll as _ h ha).2 v i hv⟩
  · have := h.succ i hi
    rw [hv, h.succ j hj] at this
    exact (Option.some.inj this).symm
  · obtain ⟨j, h1, h2⟩ := h.conf i hi
    exact ⟨j, h1, (h.own _ _ h2).1, h2⟩

/-- The lock is held by at most one running writer. -/
theorem C21_lock_exclusive (s : St) (hs : ReachLeased .lock s) (i j : Nat)
    (hi : s.pc i = .locked ∨ s.pc i = .checked ∨ ∃ b, s.pc i = .written b)
    (hj : s.pc j = .locked ∨ s.pc j = .checked ∨ ∃ b, s.pc j = .written b) : i = j := by
  obtain ⟨bs, hb, rfl⟩ := hs
  have h := (linv_runAll bs init linv_init hb).1
  have := h.hold i hi
  rw [h.hold j hj] at this
  exact (Option.some.inj this).symm

/-- A writer left alone succeeds on a version that does not exist, under every handler, from any state in
which the lock is free. -/
theorem C21_solo (k : Kind) (s : St) (i v : Nat) (hp : s.pc i = .idle) (hf : s.final v = none)
    (hl : s.lock = none) :
    ∃ n, let s' := runAll k s (.begin i v :: List.replicate n (.run i .ok))
      s'.pc i = .done .success ∧ s'.final v = some i := by
  cases k with
  | naive => exact ⟨1, by simp [runAll, step, hp, runNaive, List.replicate]⟩
  | rename =>
    refine ⟨2, ?_⟩
    simp [runAll, step, hp, runRename, List.replicate, hf]
  | lock =>
    refine ⟨4, ?_⟩
    simp [runAll, step, hp, runLock, List.replicate, hf, hl]

def twoNaive : List Act := [.begin 0 1, .begin 1 1, .run 0 .ok, .run 1 .ok]

/-- The handler used for S3 without an external store lets two writers win one version, and the first
one's manifest is replaced. -/
theorem C21_naive_violated : ¬ C21_statement ∧
    (runAll .naive init (twoNaive.take 3)).final 1 = some 0 ∧ (runAll .naive init twoNaive).final 1 = some 1 ∧
    (runAll .naive init twoNaive).pc 0 = .done .success ∧ (runAll .naive init twoNaive).pc 1 = .done .success := by
  refine ⟨fun h => ?_, by decide, by decide, by decide, by decide⟩
  have := (h .naive).1 _ 0 1 ⟨twoNaive, rfl⟩ (by decide) (by decide) (by decide)
  cases this

def expired : List Act :=
  [.begin 0 1, .begin 1 1, .run 0 .ok, .run 0 .ok, .expire, .run 1 .ok, .run 1 .ok, .run 1 .ok, .run 0 .ok,
    .run 0 .ok, .run 1 .ok]

/-- A lease that times out between the check and the write lets two writers win. -/
theorem C21_expire_violated :
    (runAll .lock init expired).pc 0 = .done .success ∧ (runAll .lock init expired).pc 1 = .done .success ∧
    (runAll .lock init (expired.take 8)).final 1 = some 1 ∧ (runAll .lock init expired).final 1 = some 0 := by
  decide

def race : List Act :=
  [.begin 0 1, .begin 1 1, .run 1 .ok, .run 0 .ok, .run 0 .ok, .run 1 .ok, .begin 2 2, .run 2 .ok, .crash 2]

example : (runAll .rename init race).pc 0 = .done .success ∧ (runAll .rename init race).pc 1 = .done .conflict ∧
    (runAll .rename init race).final 1 = some 0 ∧ (runAll .rename init race).final 2 = none := by decide

def lockRace : List Act :=
  [.begin 0 1, .begin 1 1, .run 0 .ok, .run 1 .ok, .run 0 .ok, .run 0 .ok, .run 0 .ok, .run 1 .ok, .run 1 .ok]

example : (runAll .lock init lockRace).pc 0 = .done .success ∧ (runAll .lock init lockRace).pc 1 = .done .conflict ∧
    ∀ a ∈ lockRace, a ≠ .expire := by decide

end Verif.Handlers
