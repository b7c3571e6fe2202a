/-!
# Streams that are shared by two readers

`SharedStream` (`rust/lance-core/src/utils/futures.rs`), by which the two writers of a write with blobs read one stream
(`rust/lance/src/dataset/blob.rs` 262-266, with a capacity of one), and by which the join of a merge insert reads its source twice
(`rust/lance/src/io/exec/utils.rs` 228-250, without a limit).

The two halves are polled by tasks that may run in parallel.  A poll holds the mutex in two parts (84-140 and 142-182) with the poll of the inner stream between them:
these parts are the atomic steps of the model, so that any interleaving of them is a list of events.
-/
namespace Verif.Shared

/-- `futures.rs` 14-18. -/
inductive Side where
  | left
  | right
deriving DecidableEq, Repr

/-- The other half. -/
def Side.other : Side → Side
  | .left => .right
  | .right => .left

/-- What the task that polls a half does: it may poll at any time; it sleeps after a poll that gave `Pending`, until its waker is called; it is between the two parts of a poll; its half was dropped. -/
inductive Task where
  | awake
  | asleep
  | flying
  | gone
deriving DecidableEq, Repr

/-- A map of the sides with one value replaced. -/
def upd {β : Type} (f : Side → β) (s : Side) (v : β) : Side → β := fun t => if t = s then v else f t

/-- `futures.rs` 27-36, with what is outside: the items that the inner stream has not given yet, the waker that it has kept, the tasks, and what each half has given so far.
`permits` and `queued` are the `PollSemaphore`, which both halves share: the free permits, and the future that waits for one, with the side of its waker and whether it was granted. -/
structure St (α : Type) where
  rest : List α
  innerWaker : Option Side
  buffer : List α
  polling : Option Side
  waker : Option Side
  exhausted : Bool
  buffered : Side → Nat
  permits : Option Nat
  queued : Option (Side × Bool)
  task : Side → Task
  out : Side → List α
  ended : Side → Bool
  panicked : Bool

variable {α : Type}

/-- `futures.rs` 44-72. -/
def init (capacity : Option Nat) (items : List α) : St α where
  rest := items
  innerWaker := none
  buffer := []
  polling := none
  waker := none
  exhausted := false
  buffered := fun _ => 0
  permits := capacity
  queued := none
  task := fun _ => .awake
  out := fun _ => []
  ended := fun _ => false
  panicked := false

/-- `Waker::wake`.  Simplification: a wake of a task that is in a poll is lost here; a runtime would poll it again. -/
def wake (st : St α) (s : Side) : St α :=
  if st.task s = .asleep then { st with task := upd st.task s .awake } else st

/-- `wake` of a waker that may be missing. -/
def wakeAll (st : St α) : Option Side → St α
  | none => st
  | some s => wake st s

/-- A permit is given back (`add_permits(1)`, or the drop of a permit): tokio's semaphore hands it to the future that waits, if there is one. -/
def release (st : St α) : St α :=
  match st.permits, st.queued with
  | none, _ => st
  | some _, some (w, false) => wake { st with queued := some (w, true) } w
  | some n, _ => { st with permits := some (n + 1) }

/-- `PollSemaphore::poll_acquire` (tokio-util 0.7): the one future that it keeps is polled with the waker of whoever polls; `none` is `Pending`. -/
def acquire (st : St α) (s : Side) : Option (St α) × St α :=
  match st.permits, st.queued with
  | none, _ => (some st, st)
  | some _, some (_, true) => (some { st with queued := none }, st)
  | some _, some (_, false) => (none, { st with queued := some (s, false) })
  | some 0, none => (none, { st with queued := some (s, false) })
  | some (n + 1), none => (some { st with permits := some n }, st)

/-- `futures.rs` 134-140: the inner stream is taken; `expect` panics if the other half has it. -/
def takeInner (st : St α) (s : Side) : St α :=
  if st.task s.other = .flying then { st with panicked := true }
  else { st with polling := some s, task := upd st.task s .flying }

/-- `futures.rs` 89-103: an item of the buffer. -/
def popBuffer (st : St α) (s : Side) : St α :=
  match st.buffer with
  | [] => release { st with buffered := upd st.buffered s (st.buffered s - 1), ended := upd st.ended s true, task := upd st.task s .awake }
  | x :: b => release { st with buffer := b, buffered := upd st.buffered s (st.buffered s - 1), out := upd st.out s (st.out s ++ [x]), task := upd st.task s .awake }

/-- `futures.rs` 108-140: no item is buffered. -/
def pollMore (st : St α) (s : Side) : St α :=
  match acquire st s with
  | (none, st') => { st' with task := upd st'.task s .asleep }
  | (some st', _) =>
    if st'.polling = some s.other then release { st' with waker := some s, task := upd st'.task s .asleep }
    else takeInner st' s

/-- `futures.rs` 84-140: the first part of a poll. -/
def start (st : St α) (s : Side) : St α :=
  if 0 < st.buffered s then popBuffer st s
  else if st.exhausted then { st with ended := upd st.ended s true, task := upd st.task s .awake }
  else pollMore st s

/-- `futures.rs` 142-186: the second part of a poll, with what the inner stream gave.  Simplification: the permit of a poll that gave no item is dropped in the same step (in the code right after the mutex is released). -/
def finish (st : St α) (s : Side) (ready : Bool) : St α :=
  match ready, st.rest with
  | false, _ => release { st with innerWaker := some s, task := upd st.task s .asleep }
  | true, [] =>
    release (wakeAll { st with exhausted := true, polling := none, waker := none, ended := upd st.ended s true, task := upd st.task s .awake } st.waker)
  | true, x :: r =>
    wakeAll { st with
      rest := r, polling := none, waker := none, buffered := upd st.buffered s.other (st.buffered s.other + 1), buffer := st.buffer ++ [x],
      out := upd st.out s (st.out s ++ [x]), task := upd st.task s .awake } st.waker

/-- What can happen: a poll begins, a poll ends (with or without a result of the inner stream), the inner stream calls the waker it has kept, a half is dropped (there is no `Drop`: nothing else changes). -/
inductive Event where
  | start (s : Side)
  | finish (s : Side) (ready : Bool)
  | innerWake
  | drop (s : Side)
deriving DecidableEq, Repr

/-- One event, if it can happen.  A task may be polled although nobody woke it. -/
def step (st : St α) : Event → Option (St α)
  | .start s => if st.task s = .flying ∨ st.task s = .gone then none else some (start st s)
  | .finish s ready => if st.task s = .flying then some (finish st s ready) else none
  | .innerWake => some (wakeAll { st with innerWaker := none } st.innerWaker)
  | .drop s => if st.task s = .flying then none else some { st with task := upd st.task s .gone }

/-- Some events, one after the other. -/
def run (st : St α) : List Event → Option (St α)
  | [] => some st
  | e :: es =>
    match step st e with
    | none => none
    | some st' => run st' es

end Verif.Shared
