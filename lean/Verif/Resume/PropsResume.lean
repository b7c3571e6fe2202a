import Verif.Resume.LemmasCalls

/-!
# C70: resuming `add_columns` from a checkpoint

A call of `add_columns` with a checkpoint file may stop at any point between two transactions of the checkpoint.  Calls are
repeated with the same file until one gets to the end.
-/
namespace Verif.Resume
open Verif Verif.Read Verif.Join

/-- The store after a history of calls. -/
def after {α β : Type} (legacy : Frag α → Option Nat) (opts : Opts) (compute : List (Row α) → Except Err (List β))
    (history : List (Attempt α)) : Store α β := (attempts legacy opts compute Store.empty 0 history).1

/-- A further call. -/
def resume {α β : Type} (legacy : Frag α → Option Nat) (opts : Opts) (compute : List (Row α) → Except Err (List β))
    (history : List (Attempt α)) (last : Attempt α) : Out (List (Done α β)) :=
  (cachedRun last.split legacy opts compute ⟨after legacy opts compute history, last.budget, 0⟩ last.frags).2

/-- C70, full statement: whatever happened before, a call that gets to the end gives what a call without checkpoint gives for the
fragments the dataset has now. -/
def C70_statement : Prop :=
  ∀ (α β : Type) (opts : Opts) (g : Row α → β) (history : List (Attempt α)) (last : Attempt α), opts.nulls = false →
    (∀ a ∈ last :: history, a.split = last.split ∧ Splits a.split ∧ (∀ f ∈ a.frags, f.OK) ∧ (a.frags.map (·.id)).Nodup) →
    ∀ ds, resume (fun _ => none) opts (fun b => .ok (b.map g)) history last = .done ds →
      plainRun last.split (fun _ => none) opts (fun b => .ok (b.map g)) last.frags = .ok ds

/-- Three rows. -/
def three : Frag Nat := { id := 0, rows := 3, dv := none, seq := none, file := fun o => o + 1 }

/-- The same fragment after `delete`: row 1 is gone. -/
def threeDel : Frag Nat := { three with dv := some (.set [1]) }

/-- The same fragment after other values were written to it in place. -/
def threeNew : Frag Nat := { three with file := fun o => o + 100 }

def four : Frag Nat := { id := 1, rows := 4, dv := none, seq := none, file := fun o => 20 * o }

theorem ok_of_none (f : Frag α) (h1 : f.rows < 2 ^ 32) (h2 : f.dv = none) (h3 : f.seq = none) : f.OK where
  rows := h1
  dv := by intro d h; rw [h2] at h; cases h
  seq := by intro q h; rw [h3] at h; cases h

theorem three_ok : three.OK := ok_of_none _ (by decide) rfl rfl
theorem threeNew_ok : threeNew.OK := ok_of_none _ (by decide) rfl rfl
theorem four_ok : four.OK := ok_of_none _ (by decide) rfl rfl
theorem threeDel_ok : threeDel.OK where
  rows := by decide
  dv := by
    intro d h
    cases h
    refine ⟨by simp [Deletion.DV.WF], ?_⟩
    intro o ho
    simp only [Deletion.DV.contains, List.contains_eq_mem, decide_eq_true_eq, List.mem_cons, List.not_mem_nil, or_false] at ho
    show o < 3
    omega
  seq := by intro q h; cases h

def noOpts : Opts := ⟨false, false, false⟩

/-- Twice the value. -/
def twice (r : Row Nat) : Nat := 2 * r.data

def computeTwice (b : List (Row Nat)) : Except Err (List Nat) := .ok (b.map twice)

/-- A first call that finished the first fragment (two batches and the fragment itself) and one batch of the second. -/
def stopped : Attempt Nat := ⟨[three, four], pairs, 4⟩

/-- The deletion vector and the column of every fragment of a result. -/
def shown : Out (List (Done Nat Nat)) → Option (List (Option (List Nat) × List Nat))
  | .done ds => some (ds.map (fun d => (d.frag.dv.map deletedOf', d.col)))
  | _ => none
where
  deletedOf' (d : Deletion.DV) : List Nat := deletedOf (some d)

/-- It fails: a row deleted between the two calls comes back.  The checkpoint gives the fragment as it was when it was finished,
with the deletion file it had then, and that is what is committed. -/
theorem C70_violated : ¬ C70_statement := by
  intro h
  have h1 : shown (resume (fun _ => none) noOpts computeTwice [stopped] ⟨[threeDel, four], pairs, 100⟩) =
      some [(none, [2, 4, 6]), (none, [0, 40, 80, 120])] := by decide +kernel
  cases e : resume (fun _ => none) noOpts computeTwice [stopped] ⟨[threeDel, four], pairs, 100⟩ with
  | err x => rw [e] at h1; cases h1
  | crashed => rw [e] at h1; cases h1
  | done ds =>
    have h2 := h Nat Nat noOpts twice [stopped] ⟨[threeDel, four], pairs, 100⟩ rfl (by
      intro a ha
      simp only [List.mem_cons, List.not_mem_nil, or_false] at ha
      rcases ha with ha | ha <;> subst ha <;> refine ⟨rfl, pairs_splits, ?_, by decide⟩
      · intro f hf
        simp only [List.mem_cons, List.not_mem_nil, or_false] at hf
        rcases hf with hf | hf <;> subst hf
        · exact threeDel_ok
        · exact four_ok
      · intro f hf
        simp only [stopped, List.mem_cons, List.not_mem_nil, or_false] at hf
        rcases hf with hf | hf <;> subst hf
        · exact three_ok
        · exact four_ok) ds e
    have h3 : (match plainRun pairs (fun _ => none) noOpts (fun b => .ok (b.map twice)) [threeDel, four] with
        | .ok ds => shown (.done ds)
        | .error _ => none) = some [(some [1], [2, 2, 6]), (none, [0, 40, 80, 120])] := by decide +kernel
    simp only at h2
    rw [h2] at h3
    rw [e] at h1
    simp only at h3
    rw [h1] at h3
    revert h3
    decide

/-- It fails also when values were changed in place: the column is computed from the old values, and nothing is raised. -/
theorem C70_stale_values_violated :
    shown (resume (fun _ => none) noOpts computeTwice [⟨[three], pairs, 1⟩] ⟨[threeNew], pairs, 100⟩) =
      some [(none, [2, 4, 204])] ∧
    (match plainRun pairs (fun _ => none) noOpts computeTwice [threeNew] with
      | .ok ds => shown (.done ds)
      | .error _ => none) = some [(none, [200, 202, 204])] := by
  constructor <;> decide +kernel

/-- The fragments did not change: those with the same id are the same in all calls. -/
def Unchanged {α : Type} (as : List (Attempt α)) : Prop :=
  ∀ a ∈ as, ∀ b ∈ as, ∀ f ∈ a.frags, ∀ g ∈ b.frags, g.id = f.id → g = f

/-- C70 when the dataset does not change between the calls and the batch size is the same: whatever the user's function does (it
may fail on some batches, and need not work row by row) and wherever the calls before stopped, a call stops early, or ends as a
call without checkpoint does, with the same fragments and columns or with the same error. -/
theorem C70_same_batches_partial {α β : Type} (legacy : Frag α → Option Nat) (opts : Opts)
    (compute : List (Row α) → Except Err (List β)) (history : List (Attempt α)) (last : Attempt α)
    (hs : ∀ a ∈ history, a.split = last.split) (hu : Unchanged (last :: history)) :
    resume legacy opts compute history last = .crashed ∨
    (∃ ds, resume legacy opts compute history last = .done ds ∧ plainRun last.split legacy opts compute last.frags = .ok ds) ∨
    (∃ e, resume legacy opts compute history last = .err e ∧ plainRun last.split legacy opts compute last.frags = .error e) := by
  have hid : ∀ f g : Frag α, (∃ a ∈ last :: history, f ∈ a.frags) → (∃ a ∈ last :: history, g ∈ a.frags) → g.id = f.id → g = f := by
    rintro f g ⟨a, ha, hf⟩ ⟨b, hb, hg⟩ e
    exact hu a ha b hb f hf g hg e
  have h1 := attempts_good (split := last.split) (legacy := legacy) (opts := opts) (compute := compute)
    (P := fun f => ∃ a ∈ last :: history, f ∈ a.frags) hid history Store.empty 0
    (fun a ha => ⟨hs a ha, fun f hf => ⟨a, List.mem_cons_of_mem _ ha, hf⟩⟩) (good_empty _ _ _ _ _)
  exact (cachedRun_good hid last.frags ⟨_, last.budget, 0⟩ (fun f hf => ⟨last, List.mem_cons_self, hf⟩) h1).2

/-- C70 when the dataset does not change but every call may use another batch size: if the function works row by row, a call that
gets to the end returns the given fragments, and every new column lines up with the rows.  (It may be refused instead:
the stored batches have the old size.) -/
theorem C70_other_batches_partial {α β : Type} (legacy : Frag α → Option Nat) (opts : Opts)
    (compute : List (Row α) → Except Err (List β)) (g : Row α → β) (history : List (Attempt α)) (last : Attempt α)
    (hn : opts.nulls = false) (hg : RowWise compute g)
    (hs : ∀ a ∈ last :: history, Splits a.split ∧ ∀ f ∈ a.frags, f.OK) (hu : Unchanged (last :: history)) (ds : List (Done α β))
    (h : resume legacy opts compute history last = .done ds) :
    ds.map (·.frag) = last.frags ∧ ∀ d ∈ ds, Aligned d.frag opts g d.col := by
  have hid : ∀ f g : Frag α, (∃ a ∈ last :: history, f ∈ a.frags) → (∃ a ∈ last :: history, g ∈ a.frags) → g.id = f.id → g = f := by
    rintro f g ⟨a, ha, hf⟩ ⟨b, hb, hg⟩ e
    exact hu a ha b hb f hf g hg e
  have hok : ∀ f : Frag α, (∃ a ∈ last :: history, f ∈ a.frags) → f.OK := by
    rintro f ⟨a, ha, hf⟩
    exact (hs a ha).2 f hf
  have h1 := attempts_rows hn hg legacy (fun f => ∃ a ∈ last :: history, f ∈ a.frags) hid hok history Store.empty 0
    (fun a ha => ⟨(hs a (List.mem_cons_of_mem _ ha)).1, fun f hf => ⟨a, List.mem_cons_of_mem _ ha, hf⟩⟩)
    (fun f _ => goodRows_empty opts g f)
  exact (cachedRun_rows (hs last List.mem_cons_self).1 hn hg legacy _ hid hok last.frags ⟨_, last.budget, 0⟩
    (fun f hf => ⟨last, List.mem_cons_self, hf⟩) h1).2 ds h

/-- Nothing is computed twice: over all calls, however many there were and wherever they stopped, the user's function is called at
most once for every batch, and once more for every call (the batch that was not stored when the call stopped). -/
theorem C70_no_recomputation {α β : Type} (split : List α → List (List α)) (legacy : Frag α → Option Nat) (opts : Opts)
    (compute : List (Row α) → Except Err (List β)) (all : List (Frag α)) (hall : (all.map (·.id)).Nodup)
    (history : List (Attempt α)) (hs : ∀ a ∈ history, a.split = split ∧ ∀ f ∈ a.frags, f ∈ all) :
    (attempts legacy opts compute Store.empty 0 history).2 ≤
      (all.map (fun f => (batchesOf split opts f).length)).sum + history.length := by
  have h := attempts_calls (compute := compute) (opts := opts) legacy all hall history (Store.empty : Store α β) 0 hs
  have e : all.map (need split opts (Store.empty : Store α β)) = all.map (fun f => (batchesOf split opts f).length) :=
    List.map_congr_left (fun f _ => need_empty f)
  rw [e] at h
  omega

/-- A call that is not stopped ends: it has at most one transaction for every batch and every fragment. -/
theorem C70_ends {α β : Type} (legacy : Frag α → Option Nat) (opts : Opts) (compute : List (Row α) → Except Err (List β))
    (history : List (Attempt α)) (last : Attempt α)
    (h : (last.frags.map (fun f => (batchesOf last.split opts f).length + 1)).sum ≤ last.budget) :
    resume legacy opts compute history last ≠ .crashed :=
  cachedRun_live legacy last.frags ⟨_, last.budget, 0⟩ h

/-- Stopped before anything was stored, in the first fragment, after the first fragment, in the second: the last call gives what one
call gives, and before it the function was called 7 times for the 4 batches (three results were lost, the fourth call stopped when
it wanted to store the fragment). -/
theorem C70_nonvacuous :
    let h : List (Attempt Nat) := [⟨[three, four], pairs, 0⟩, ⟨[three, four], pairs, 1⟩, ⟨[three, four], pairs, 2⟩, ⟨[three, four], pairs, 2⟩]
    let last : Attempt Nat := ⟨[three, four], pairs, 6⟩
    Unchanged (last :: h) ∧
    shown (resume (fun _ => none) noOpts computeTwice h last) = some [(none, [2, 4, 6]), (none, [0, 40, 80, 120])] ∧
    (attempts (fun _ => none) noOpts computeTwice Store.empty 0 h).2 = 7 ∧
    ([three, four].map (fun f => (batchesOf pairs noOpts f).length)).sum = 4 := by
  refine ⟨?_, by decide +kernel, by decide +kernel, by decide +kernel⟩
  intro a ha b hb f hf g hg e
  have fr : ∀ a : Attempt Nat, a ∈ ([⟨[three, four], pairs, 6⟩, ⟨[three, four], pairs, 0⟩, ⟨[three, four], pairs, 1⟩,
      ⟨[three, four], pairs, 2⟩, ⟨[three, four], pairs, 2⟩] : List (Attempt Nat)) → a.frags = [three, four] := by
    intro a ha
    simp only [List.mem_cons, List.not_mem_nil, or_false] at ha
    rcases ha with ha | ha | ha | ha | ha <;> subst ha <;> rfl
  rw [fr a ha] at hf
  rw [fr b hb] at hg
  simp only [List.mem_cons, List.not_mem_nil, or_false] at hf hg
  rcases hf with hf | hf <;> rcases hg with hg | hg <;> subst hf <;> subst hg
  · rfl
  · exact absurd e (by decide)
  · exact absurd e (by decide)
  · rfl

/-- Singles, then pairs: the stored batch has one row, so the call with batches of two is refused. -/
def singles {α : Type} (l : List α) : List (List α) := l.map (fun x => [x])

/-- With another batch size a call may be refused: the stored batch has the old size. -/
theorem C70_other_batch_size_refused :
    (match resume (fun _ => none) noOpts computeTwice [⟨[three, four], singles, 1⟩] ⟨[three, four], pairs, 100⟩ with
      | .err .sizeDiffers => true
      | _ => false) = true ∧
    shown (resume (fun _ => none) noOpts computeTwice [⟨[three, four], singles, 4⟩] ⟨[three, four], pairs, 100⟩) =
      some [(none, [2, 4, 6]), (none, [0, 40, 80, 120])] := by
  constructor <;> decide +kernel

end Verif.Resume
