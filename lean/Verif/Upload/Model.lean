/-!
# Writing an object

Models `ObjectWriter` (`rust/lance-io/src/object_writer.rs` 26-462): bytes are gathered in a buffer; a small object is
put at once when the writer is shut down, a larger one in parts that are uploaded at the same time.

The store and the scheduler are an oracle: each poll of a future takes the next answer from a list.  What is polled
while the list is empty is pending.
-/
namespace Verif.Upload

/-- The answer to a poll: still pending, or finished with success, with an error, or with a "connection reset by peer".
For tasks of a `JoinSet` the answer also tells which of the tasks finished. -/
inductive Ans
  | pending
  | ok (k : Nat)
  | err (k : Nat)
  | reset (k : Nat)
  deriving DecidableEq, Repr

/-- The settings: `INITIAL_UPLOAD_STEP` (26-27), `initial_upload_size` (48-64), `use_constant_size_upload_parts`,
`max_upload_parallelism` (29-37), `max_conn_reset_retries` (39-46), and what the store makes of an upload when it is
completed, from the payloads of all calls of `put_part` in order and the numbers of those that were stored.  (In
object_store, a dependency, `put_part` numbers the calls, and `complete` fails unless all of them were stored.) -/
structure Conf where
  step : Nat
  init : Nat
  constant : Bool
  par : Nat
  retries : Nat
  finish : List (List Nat) → List Nat → Option (List Nat)

/-- A part that is being uploaded (152-178 `put_part`): the number of its call of `put_part`, and the bytes (kept for a
retry).  The `part_idx` in an `UploadPutError` is passed on but never used, and left out here. -/
structure Task where
  call : Nat
  data : List Nat
  deriving DecidableEq, Repr

/-- 82-101 `UploadState`.  `broken`: a future whose result was an error; to poll it again panics. -/
inductive St
  | started
  | creating
  | inProgress (partIdx : Nat) (tasks : List Task)
  | putting (data : List Nat)
  | completing
  | done
  | broken
  deriving DecidableEq, Repr

/-- 72-80 `ObjectWriter`, with the capacity of the buffer, and the store's part: the payloads of the calls of `put_part`,
the numbers of the calls that were stored, and the object at the path (`none`: what was there before). -/
structure W where
  state : St
  buffer : List Nat
  cap : Nat
  cursor : Nat
  resets : Nat
  upload : List (List Nat)
  stored : List Nat
  object : Option (List Nat)
  deriving DecidableEq, Repr

/-- 137-147 `new`.  (`Vec::with_capacity` is taken to give exactly the capacity asked for.) -/
def W.new (c : Conf) : W := ⟨.started, [], c.init, 0, 0, [], [], none⟩

/-- 149-162 `next_part_buffer`: the capacity of the next buffer. -/
def nextCap (c : Conf) (partIdx : Nat) : Nat :=
  if c.constant then c.init else max c.init ((partIdx / 100 + 1) * c.step)

/-- What a call of `poll_tasks` leaves: the writer, the rest of the answers, whether it failed, and whether something
that was polled is pending (so that the caller will be woken). -/
structure Res where
  w : W
  rest : List Ans
  err : Bool
  pend : Bool
  deriving DecidableEq, Repr

/-- A call of `put_part` with this payload. -/
def W.call (w : W) (data : List Nat) : W := { w with upload := w.upload ++ [data] }

/-- 180-281 `poll_tasks`; `none` is a panic. -/
def pollTasks (c : Conf) : List Ans → W → Option Res
  | [], w =>
    match w.state with
    | .started => some ⟨w, [], false, false⟩
    | .done => some ⟨w, [], false, false⟩
    | .broken => none
    | .inProgress _ [] => some ⟨w, [], false, false⟩
    | _ => some ⟨w, [], false, true⟩
  | a :: o, w =>
    match w.state with
    | .started => some ⟨w, a :: o, false, false⟩
    | .done => some ⟨w, a :: o, false, false⟩
    | .broken => none
    | .creating =>
      match a with
      | .ok _ => pollTasks c o { w.call w.buffer with
          state := .inProgress 1 [⟨w.upload.length, w.buffer⟩], buffer := [], cap := nextCap c 0 }
      | .pending => some ⟨w, o, false, true⟩
      | _ => some ⟨{ w with state := .broken }, o, true, false⟩
    | .inProgress n tasks =>
      if tasks = [] then some ⟨w, a :: o, false, false⟩
      else
        match a with
        | .pending => some ⟨w, o, false, true⟩
        | .ok k =>
          match tasks[k]? with
          | none => some ⟨w, o, false, true⟩
          | some t => pollTasks c o { w with state := .inProgress n (tasks.eraseIdx k), stored := t.call :: w.stored }
        | .err k =>
          match tasks[k]? with
          | none => some ⟨w, o, false, true⟩
          | some _ => some ⟨{ w with state := .inProgress n (tasks.eraseIdx k) }, o, true, false⟩
        | .reset k =>
          match tasks[k]? with
          | none => some ⟨w, o, false, true⟩
          | some t =>
            if w.resets < c.retries then
              pollTasks c o { w.call t.data with
                state := .inProgress n (tasks.eraseIdx k ++ [⟨w.upload.length, t.data⟩]), resets := w.resets + 1 }
            else some ⟨{ w with state := .inProgress n (tasks.eraseIdx k) }, o, true, false⟩
    | .putting data =>
      match a with
      | .ok _ => some ⟨{ w with state := .done, object := some data }, o, false, false⟩
      | .pending => some ⟨w, o, false, true⟩
      | _ => some ⟨{ w with state := .broken }, o, true, false⟩
    | .completing =>
      match a with
      | .ok _ =>
        match c.finish w.upload w.stored with
        | some b => some ⟨{ w with state := .done, object := some b }, o, false, false⟩
        | none => some ⟨{ w with state := .broken }, o, true, false⟩
      | .pending => some ⟨w, o, false, true⟩
      | _ => some ⟨{ w with state := .broken }, o, true, false⟩

/-- What a poll of the writer returns. -/
inductive Out
  | pending
  | ready (n : Nat)
  | error
  deriving DecidableEq, Repr

/-- The result of a poll of the writer; `pend`: something that was polled is pending. -/
structure Polled where
  w : W
  out : Out
  pend : Bool
  deriving DecidableEq, Repr

/-- 346-375: if the buffer is full, start the next request; `none` is a panic (`part_idx` is a `u16`). -/
def startNext (c : Conf) (w : W) : Option W :=
  if w.cap = w.buffer.length then
    match w.state with
    | .started => some { w with state := .creating }
    | .inProgress n tasks =>
      if tasks.length < c.par then
        if n + 1 < 65536 then
          some { w.call w.buffer with
            state := .inProgress (n + 1) (tasks ++ [⟨w.upload.length, w.buffer⟩]), buffer := [], cap := nextCap c n }
        else none
      else some w
    | _ => some w
  else some w

/-- 327-384 `poll_write`. -/
def pollWrite (c : Conf) (buf : List Nat) (o : List Ans) (w : W) : Option Polled :=
  match pollTasks c o w with
  | none => none
  | some r =>
    if r.err then some ⟨r.w, .error, r.pend⟩
    else
      let n := min (r.w.cap - r.w.buffer.length) buf.length
      match startNext c { r.w with buffer := r.w.buffer ++ buf.take n, cursor := r.w.cursor + n } with
      | none => none
      | some w' =>
        match pollTasks c r.rest w' with
        | none => none
        | some r' =>
          if r'.err then some ⟨r'.w, .error, r.pend || r'.pend⟩
          else some ⟨r'.w, if n = 0 then .pending else .ready n, r.pend || r'.pend⟩

/-- 386-406 `poll_flush`. -/
def pollFlush (c : Conf) (o : List Ans) (w : W) : Option Polled :=
  match pollTasks c o w with
  | none => none
  | some r =>
    if r.err then some ⟨r.w, .error, r.pend⟩
    else
      match r.w.state with
      | .started => some ⟨r.w, .ready 0, r.pend⟩
      | .done => some ⟨r.w, .ready 0, r.pend⟩
      | .inProgress _ [] => some ⟨r.w, .ready 0, r.pend⟩
      | _ => some ⟨r.w, .pending, r.pend⟩

/-- 408-454 the loop of `poll_shutdown`.  It goes round three times at most; the fuel is five, and running out of it would
be a poll that never wakes. -/
def shutdownLoop (c : Conf) : Nat → List Ans → W → Bool → Option Polled
  | 0, _, w, _ => some ⟨w, .pending, false⟩
  | fuel + 1, o, w, p =>
    match pollTasks c o w with
    | none => none
    | some r =>
      if r.err then some ⟨r.w, .error, p || r.pend⟩
      else
        match r.w.state with
        | .done => some ⟨r.w, .ready 0, p || r.pend⟩
        | .started =>
          shutdownLoop c fuel r.rest { r.w with state := .putting r.w.buffer, buffer := [], cap := 0 } (p || r.pend)
        | .inProgress n tasks =>
          if r.w.buffer ≠ [] ∧ tasks.length < c.par then
            shutdownLoop c fuel r.rest { r.w.call r.w.buffer with
              state := .inProgress n (tasks ++ [⟨r.w.upload.length, r.w.buffer⟩]), buffer := [], cap := 0 } (p || r.pend)
          else if tasks = [] then shutdownLoop c fuel r.rest { r.w with state := .completing } (p || r.pend)
          else some ⟨r.w, .pending, p || r.pend⟩
        | _ => some ⟨r.w, .pending, p || r.pend⟩

def pollShutdown (c : Conf) (o : List Ans) (w : W) : Option Polled := shutdownLoop c 5 o w false

/-- A poll of the writer, with the answers to what it polls. -/
inductive Op
  | write (buf : List Nat) (o : List Ans)
  | flush (o : List Ans)
  | shutdown (o : List Ans)
  deriving DecidableEq, Repr

def poll (c : Conf) : Op → W → Option Polled
  | .write buf o, w => pollWrite c buf o w
  | .flush o, w => pollFlush c o w
  | .shutdown o, w => pollShutdown c o w

/-- Some polls, one after the other, and what they return. -/
def run (c : Conf) : List Op → W → Option (W × List Out)
  | [], w => some (w, [])
  | p :: ps, w =>
    match poll c p w with
    | none => none
    | some r => (run c ps r.w).map fun x => (x.1, r.out :: x.2)

/-! ### What a store makes of an upload -/

/-- `complete` of the remote stores of object_store 0.11 (a dependency): refused unless every call of `put_part` was
stored. -/
def finishStrict (up : List (List Nat)) (st : List Nat) : Option (List Nat) :=
  if (List.range up.length).all (fun i => st.contains i) then some up.flatten else none

/-- A store that puts together what it has. -/
def finishLenient (up : List (List Nat)) (st : List Nat) : Option (List Nat) :=
  some (((List.range up.length).filter (fun i => st.contains i)).flatMap (fun i => up.getD i []))

end Verif.Upload
