/-!
# The I/O queue

Models `rust/lance-io/src/scheduler.rs`: `PrioritiesInFlight` (146-176), `IoQueueState` (178-262), `IoQueue`
(268-349), the batch that collects the results of one request (355-430), the I/O loop (480-496) and
`ScanScheduler::do_submit_request` / `submit_request` (600-663) as a state machine whose events are the critical
sections of the code: they may interleave in every order.

Simplifications: unbounded numbers for `u32`/`u64`/`i64`; priorities are checked to be below `2^128` when a request is
submitted; the process-wide quota (`IOPS_QUOTA`, 40-135) is not modelled; read results are not represented (see
`Coalesce.lean`), only their sizes.
-/
namespace Verif.Sched

/-- One read (`IoTask`, 432-437).  `id` numbers the tasks in the order they were pushed (not in the code). -/
structure Task where
  id : Nat
  batch : Nat
  prio : Nat
  bytes : Nat
deriving DecidableEq, Repr

/-- `live`: reads outstanding; `ready`: the response was sent and waits for the caller; `gone`: consumed by the caller
or thrown away. -/
inductive BPhase where
  | live
  | ready
  | gone
deriving DecidableEq, Repr

/-- A request (`MutableBatch`, 359-366, and the caller's future). `total` is `num_reqs`, `pushed` the tasks submitted so
far, `delivered` the tasks whose data arrived, `dropped` whether the caller dropped the future. -/
structure Batch where
  prio : Nat
  total : Nat
  pushed : Nat
  delivered : Nat
  numBytes : Nat
  dropped : Bool
  phase : BPhase
deriving DecidableEq, Repr

/-- Where the I/O loop is (297-321, 480-496): about to look at the queue, waiting in `notified()`, or ended. -/
inductive LPhase where
  | checking
  | parked
  | stopped
deriving DecidableEq, Repr

/-- The whole state.  `held`: data delivered to a request that was not consumed yet; `leaked`: data of requests whose
future was dropped. -/
structure QState where
  iopsAvail : Nat
  bytesAvail : Int
  pending : List Task
  inFlight : List Nat
  doneSched : Bool
  permit : Bool
  loop : LPhase
  running : List Task
  finishing : List Task
  held : List Task
  leaked : List Task
  batches : List Batch
  nextId : Nat
  panicked : Bool
deriving DecidableEq, Repr

/-- `u128::MAX`. -/
scoped notation "PMAX" => (340282366920938463463374607431768211455 : Nat)

/-- scheduler.rs:198-208 `IoQueueState::new`, 533-548. -/
def qinit (capacity buffer : Nat) : QState where
  iopsAvail := capacity
  bytesAvail := buffer
  pending := []
  inFlight := []
  doneSched := false
  permit := false
  loop := .checking
  running := []
  finishing := []
  held := []
  leaked := []
  batches := []
  nextId := 0
  panicked := false

/-- scheduler.rs:157-159 `min_in_flight`. -/
def minInFlight (l : List Nat) : Nat := l.headD PMAX

/-- scheduler.rs:161-167 `push`: insert where the binary search points. -/
def pushPrio (p : Nat) : List Nat → List Nat
  | [] => [p]
  | x :: l => if p ≤ x then p :: x :: l else x :: pushPrio p l

/-- scheduler.rs:169-175 `remove`; `none` is `unreachable!()`. -/
def removePrio (p : Nat) (l : List Nat) : Option (List Nat) := if p ∈ l then some (l.erase p) else none

/-- scheduler.rs:337-339: `remove`, `n` times. -/
def removePrios (p : Nat) : Nat → List Nat → Option (List Nat)
  | 0, l => some l
  | n + 1, l => (removePrio p l).bind (removePrios p n)

/-- scheduler.rs:231-242 `can_deliver`. -/
def canDeliver (s : QState) (t : Task) : Bool :=
  if s.iopsAvail = 0 then false
  else if t.prio ≤ minInFlight s.inFlight then true
  else if s.bytesAvail < (t.bytes : Int) then false
  else true

/-- scheduler.rs:224-226 `finished`. -/
def finished (s : QState) : Bool := s.doneSched && s.pending.isEmpty

/-- scheduler.rs:244-261 `next_task`, when the task at the top of the heap may run. -/
def startTask (s : QState) (t : Task) : QState :=
  { s with
    inFlight := pushPrio t.prio s.inFlight
    iopsAvail := s.iopsAvail - 1
    bytesAvail := s.bytesAvail - t.bytes
    pending := s.pending.erase t
    running := t :: s.running }

/-- The top of the heap is a task of least priority number; which one among equals is not specified. -/
def isTop (s : QState) (t : Task) : Bool := decide (t ∈ s.pending) && s.pending.all (fun x => decide (t.prio ≤ x.prio))

inductive QEvent where
  | begin (prio total : Nat)
  | push (b bytes : Nat)
  | check (top : Option Task)
  | wake
  | iopDone (t : Task)
  | deliver (t : Task)
  | respond (b : Nat)
  | consume (b : Nat)
  | dropFuture (b : Nat)
  | close
deriving DecidableEq, Repr

/-- scheduler.rs:607-620: a new request. -/
def stepBegin (s : QState) (prio total : Nat) : Option QState :=
  if s.doneSched = false ∧ prio ≤ PMAX then
    some { s with batches := s.batches ++ [⟨prio, total, 0, 0, 0, false, .live⟩] }
  else none

/-- scheduler.rs:622-641 and 284-295: one task of a request goes into the queue. -/
def stepPush (s : QState) (b bytes : Nat) : Option QState :=
  match s.batches[b]? with
  | none => none
  | some B =>
    if s.doneSched = false ∧ B.pushed < B.total then
      some { s with
        pending := ⟨s.nextId, b, B.prio, bytes⟩ :: s.pending
        nextId := s.nextId + 1
        batches := s.batches.set b { B with pushed := B.pushed + 1 }
        permit := true }
    else none

/-- scheduler.rs:297-321 `pop` after the quota was acquired, and 484-490: look at the top of the heap; start it, or end,
or wait. -/
def stepCheck (s : QState) (top : Option Task) : Option QState :=
  if s.loop = .checking then
    match top with
    | none =>
      if s.pending = [] then
        if finished s then some { s with loop := .stopped } else some { s with loop := .parked }
      else none
    | some t =>
      if isTop s t then
        if canDeliver s t then some (startTask s t)
        else if finished s then some { s with loop := .stopped }
        else some { s with loop := .parked }
      else none
  else none

/-- scheduler.rs:319 `notified().await` returns: there is a permit (`Notify` keeps at most one). -/
def stepWake (s : QState) : Option QState :=
  if s.loop = .parked ∧ s.permit = true then some { s with permit := false, loop := .checking } else none

/-- scheduler.rs:465-478, 629-630 and 323-329: a read ended (well or not), `on_iop_complete`. -/
def stepIopDone (s : QState) (t : Task) : Option QState :=
  if t ∈ s.running then
    some { s with
      running := s.running.erase t
      finishing := t :: s.finishing
      iopsAvail := s.iopsAvail + 1
      permit := true }
  else none

/-- scheduler.rs:631-637 and 416-429: the data of a read is put into its request. -/
def stepDeliver (s : QState) (t : Task) : Option QState :=
  if t ∈ s.finishing then
    match s.batches[t.batch]? with
    | none => none
    | some B =>
      some { s with
        finishing := s.finishing.erase t
        held := t :: s.held
        batches := s.batches.set t.batch { B with delivered := B.delivered + 1, numBytes := B.numBytes + t.bytes } }
  else none

/-- A request is thrown away: its data goes, the budget stays taken. -/
def throwAway (s : QState) (b : Nat) (B : Batch) : QState :=
  { s with
    held := s.held.filter (fun t => decide (t.batch ≠ b))
    leaked := s.held.filter (fun t => decide (t.batch = b)) ++ s.leaked
    batches := s.batches.set b { B with phase := .gone } }

/-- scheduler.rs:385-404: the last reference to a batch goes away, the response is sent; nobody may be there to
receive it. -/
def stepRespond (s : QState) (b : Nat) : Option QState :=
  match s.batches[b]? with
  | none => none
  | some B =>
    if B.phase = .live ∧ B.delivered = B.total then
      if B.dropped then some (throwAway s b B)
      else some { s with batches := s.batches.set b { B with phase := .ready } }
    else none

/-- scheduler.rs:656-662 and 331-342: the caller gets the response, `on_bytes_consumed`. -/
def stepConsume (s : QState) (b : Nat) : Option QState :=
  match s.batches[b]? with
  | none => none
  | some B =>
    if B.phase = .ready then
      match removePrios B.prio B.total s.inFlight with
      | none => some { s with panicked := true }
      | some l => some { s with
          bytesAvail := s.bytesAvail + B.numBytes
          inFlight := l
          held := s.held.filter (fun t => decide (t.batch ≠ b))
          batches := s.batches.set b { B with phase := .gone }
          permit := true }
    else none

/-- The caller drops the future of a request without waiting for it. -/
def stepDrop (s : QState) (b : Nat) : Option QState :=
  match s.batches[b]? with
  | none => none
  | some B =>
    match B.phase with
    | .live => if B.dropped then none else some { s with batches := s.batches.set b { B with dropped := true } }
    | .ready => some (throwAway s b B)
    | .gone => none

/-- scheduler.rs:344-350 `close` (the scheduler is dropped). -/
def stepClose (s : QState) : Option QState :=
  if s.doneSched then none else some { s with doneSched := true, permit := true }

/-- One event; `none`: it cannot happen now. -/
def qstep (s : QState) : QEvent → Option QState
  | .begin p n => stepBegin s p n
  | .push b n => stepPush s b n
  | .check t => stepCheck s t
  | .wake => stepWake s
  | .iopDone t => stepIopDone s t
  | .deliver t => stepDeliver s t
  | .respond b => stepRespond s b
  | .consume b => stepConsume s b
  | .dropFuture b => stepDrop s b
  | .close => stepClose s

/-- A schedule. -/
def qrun (s : QState) : List QEvent → Option QState
  | [] => some s
  | e :: es => (qstep s e).bind (fun s' => qrun s' es)

/-- The states some schedule leads to. -/
def Reachable (capacity buffer : Nat) (s : QState) : Prop := ∃ es, qrun (qinit capacity buffer) es = some s

/-- The reads that were started and whose data was not consumed. -/
def unconsumed (s : QState) : List Task := s.running ++ s.finishing ++ s.held ++ s.leaked

def sumBytes (l : List Task) : Nat := (l.map Task.bytes).sum

end Verif.Sched
