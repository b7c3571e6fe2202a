/-!
# Coalesced reads

Models `rust/lance-io/src/scheduler.rs`: `FileScheduler::submit_request` and `submit_single` (681-775), the batch that
collects the results of the single reads (355-430) and the single read (465-478).
-/
namespace Verif.Sched

/-- A byte range `start..stop` (`Range<u64>`; unbounded numbers for `u64`). -/
structure Rng where
  start : Nat
  stop : Nat
deriving DecidableEq, Repr

/-- The bytes of a file in a range. -/
def bytesOf {β : Type} (file : List β) (r : Rng) : List β := (file.drop r.start).take (r.stop - r.start)

/-- scheduler.rs:465-478 `IoTask::run`: an empty range is not read; `none` is an I/O error (here: the range does not
lie in the file). -/
def readRange {β : Type} (file : List β) (r : Rng) : Option (List β) :=
  if r.start = r.stop then some []
  else if r.start ≤ r.stop ∧ r.stop ≤ file.length then some (bytesOf file r)
  else none

/-- scheduler.rs:681-684 `is_close_together`. -/
def closeTogether (a b : Rng) (block : Nat) : Bool := decide (b.start ≤ a.stop + block)

/-- scheduler.rs:686-688 `is_overlapping`. -/
def overlapping (a b : Rng) : Bool := decide (a.start < b.stop) && decide (b.start < a.stop)

/-- scheduler.rs:716-725, the loop over the requests after the first. -/
def coalesceFrom (block : Nat) : Rng → List Rng → List Rng
  | curr, [] => [curr]
  | curr, r :: rs =>
    if closeTogether curr r block then coalesceFrom block { curr with stop := max curr.stop r.stop } rs
    else curr :: coalesceFrom block r rs

/-- scheduler.rs:711-726: the reads issued for a list of requests. -/
def coalesce (block : Nat) : List Rng → List Rng
  | [] => []
  | r :: rs => coalesceFrom block r rs

/-- scheduler.rs:416-429 `deliver_data`: one buffer for each read; the first error is kept (`none`). -/
def deliver {β : Type} (bufs : Option (List (List β))) (chunk : Nat × Option (List β)) : Option (List (List β)) :=
  match bufs, chunk.2 with
  | some l, some d => some (l.set chunk.1 d)
  | _, _ => none

/-- scheduler.rs:600-642, 355-404: the reads complete in the order `order` (positions in the list of reads). -/
def runReads {β : Type} (file : List β) (reads : List Rng) (order : List Nat) : Option (List (List β)) :=
  (order.map (fun i => (i, (reads[i]?).bind (readRange file)))).foldl deliver
    (some (List.replicate reads.length []))

/-- What the caller gets. -/
inductive Answer (β : Type) where
  | ok (data : List (List β))
  | error
  | panic
deriving DecidableEq, Repr

/-- scheduler.rs:744-751: the slice of one request out of a read; `none` is a panic (the subtraction underflows or the
slice is out of bounds). -/
def cut {β : Type} (u : Rng) (data : List β) (r : Rng) : Option (List β) :=
  if u.start ≤ r.start ∧ r.start ≤ r.stop ∧ r.stop - u.start ≤ data.length then
    some ((data.drop (r.start - u.start)).take (r.stop - r.start))
  else none

/-- scheduler.rs:738-756: the loop with two indices.  `updated_index` only moves forward past reads that do not overlap
the request at hand; the loop ends when either list is used up. -/
def sliceLoop {β : Type} : List (Rng × List β) → List Rng → Option (List (List β))
  | _, [] => some []
  | us, r :: rs =>
    match us.dropWhile (fun u => !overlapping u.1 r) with
    | [] => some []
    | u :: us' =>
      match cut u.1 u.2 r with
      | none => none
      | some d => (sliceLoop (u :: us') rs).map (d :: ·)

/-- scheduler.rs:703-760 `FileScheduler::submit_request`. -/
def submitRequest {β : Type} (file : List β) (block : Nat) (reqs : List Rng) (order : List Nat) : Answer β :=
  match runReads file (coalesce block reqs) order with
  | none => .error
  | some bufs =>
    match sliceLoop ((coalesce block reqs).zip bufs) reqs with
    | none => .panic
    | some l => .ok l

/-- scheduler.rs:768-775 `submit_single`: `next().unwrap()` of the results. -/
def submitSingle {β : Type} (file : List β) (block : Nat) (r : Rng) : Answer β :=
  match submitRequest file block [r] [0] with
  | .ok (d :: _) => .ok [d]
  | .ok [] => .panic
  | .error => .error
  | .panic => .panic

end Verif.Sched
