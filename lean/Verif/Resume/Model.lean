import Verif.Join.Model

/-!
# Adding columns with a checkpoint

Models `add_columns_impl` of `rust/lance/src/dataset/schema_evolution.rs` (343-401), the checkpoint store behind it
(`python/python/lance/udf.py` 95-164, reached through `python/src/dataset.rs` 1955-2050) and the part of `add_columns` that uses
its result (290-325; the fragments go into an `Operation::Merge`, transaction.rs 775-776, which replaces the fragment list).

A run may stop at any point (a crash, or an exception of the user's function).  What survives is the store: the SQLite
transactions committed before.  Data files written by a run that stopped stay unreferenced unless the store names them.
-/
namespace Verif.Resume
open Verif Verif.Read Verif.Join

/-- A fragment with the new column: the metadata that is stored as JSON and that is committed in the end.  `frag` stands for all
that the metadata said before (data files, deletion file), `col` for the new data file (the updater refuses a fragment without
batches, so there always is one). -/
structure Done (α β : Type) where
  frag : Frag α
  col : List β

/-- udf.py:110-121: the two tables, `batches (fragment_id, batch_index, result)` and `fragments (fragment_id, data)`.
Trusted: pickling of batches, the JSON of fragments (C43) and SQLite. -/
structure Store (α β : Type) where
  batches : List ((Nat × Nat) × List β)
  frags : List (Nat × Done α β)

def Store.empty {α β : Type} : Store α β := ⟨[], []⟩

/-- udf.py:126-135 `get_batch`: `fetchone`, in the order of insertion. -/
def Store.getBatch {α β : Type} (s : Store α β) (fid idx : Nat) : Option (List β) :=
  (s.batches.find? (fun x => x.1 == (fid, idx))).map (·.2)

/-- udf.py:137-143 `insert_batch`. -/
def Store.insertBatch {α β : Type} (s : Store α β) (fid idx : Nat) (v : List β) : Store α β :=
  { s with batches := s.batches ++ [((fid, idx), v)] }

/-- udf.py:145-154 `get_fragment`.  Fragment ids fit 32 bits (they are part of row addresses), so the conversion of 356 is not
modelled. -/
def Store.getFragment {α β : Type} (s : Store α β) (fid : Nat) : Option (Done α β) :=
  (s.frags.find? (fun x => x.1 == fid)).map (·.2)

/-- udf.py:156-165 `insert_fragment`: one transaction, which also drops the batches of the fragment. -/
def Store.insertFragment {α β : Type} (s : Store α β) (fid : Nat) (d : Done α β) : Store α β :=
  { batches := s.batches.filter (fun x => x.1.1 != fid), frags := s.frags ++ [(fid, d)] }

/-- How (a part of) a run ends. -/
inductive Out (γ : Type) where
  | done (x : γ)
  | err (e : Err)
  | crashed

/-- Where a run stands: the store and the number of transactions it will still commit before it stops. -/
structure World (α β : Type) where
  store : Store α β
  budget : Nat
  calls : Nat

/-- schema_evolution.rs:367-389, the loop over the batches of a fragment (together with `Updater::next` and
`Updater::update`, as in `Join.updateLoop`).  `calls` counts the calls of the user's function. -/
def cachedLoop {α β : Type} (compute : List (Row α) → Except Err (List β)) (fid : Nat) :
    World α β → Nat → Restorer → List (List (Row α)) → World α β × Out (List β)
  | w, _, r, [] => (w, if r.exhausted then .done [] else .err .tooManyMissing)
  | w, idx, r, b :: bs =>
    let fetched : World α β × Out (List β) :=
      match w.store.getBatch fid idx with
      | some v => (w, .done v)
      | none =>
        match compute b with
        | .error e => ({ w with calls := w.calls + 1 }, .err e)
        | .ok v =>
          match w.budget with
          | 0 => ({ w with calls := w.calls + 1 }, .crashed)
          | n + 1 => ({ store := w.store.insertBatch fid idx v, budget := n, calls := w.calls + 1 }, .done v)
    match fetched with
    | (w', .err e) => (w', .err e)
    | (w', .crashed) => (w', .crashed)
    | (w', .done v) =>
      if b.length ≠ v.length then (w', .err .sizeDiffers)
      else
        match restore r v with
        | .error e => (w', .err e)
        | .ok (out, r') =>
          match cachedLoop compute fid w' (idx + 1) r' bs with
          | (w'', .done rest) => (w'', .done (out ++ rest))
          | x => x

/-- schema_evolution.rs:354-397, one fragment. -/
def cachedFragment {α β : Type} (split : List α → List (List α)) (legacy : Option Nat) (opts : Opts)
    (compute : List (Row α) → Except Err (List β)) (w : World α β) (f : Frag α) : World α β × Out (Done α β) :=
  match w.store.getFragment f.id with
  | some d => (w, .done d)
  | none =>
    match Read.readAll split f opts with
    | none => (w, .err .read)
    | some bs =>
      match cachedLoop compute f.id w 0 (Restorer.new (deletedOf f.dv) legacy) bs with
      | (w', .err e) => (w', .err e)
      | (w', .crashed) => (w', .crashed)
      | (w', .done col) =>
        match w'.budget with
        | 0 => (w', .crashed)
        | n + 1 => ({ w' with store := w'.store.insertFragment f.id ⟨f, col⟩, budget := n }, .done ⟨f, col⟩)

/-- schema_evolution.rs:343-401 `add_columns_impl` with a checkpoint: the fragments in turn (`then` is sequential), the first
error ends it.  `legacy` is the row group size of a fragment of version 1 files. -/
def cachedRun {α β : Type} (split : List α → List (List α)) (legacy : Frag α → Option Nat) (opts : Opts)
    (compute : List (Row α) → Except Err (List β)) : World α β → List (Frag α) → World α β × Out (List (Done α β))
  | w, [] => (w, .done [])
  | w, f :: fs =>
    match cachedFragment split (legacy f) opts compute w f with
    | (w', .err e) => (w', .err e)
    | (w', .crashed) => (w', .crashed)
    | (w', .done d) =>
      match cachedRun split legacy opts compute w' fs with
      | (w'', .done ds) => (w'', .done (d :: ds))
      | x => x

/-- schema_evolution.rs:343-401 without a checkpoint. -/
def plainRun {α β : Type} (split : List α → List (List α)) (legacy : Frag α → Option Nat) (opts : Opts)
    (compute : List (Row α) → Except Err (List β)) : List (Frag α) → Except Err (List (Done α β))
  | [] => .ok []
  | f :: fs =>
    match runUpdater split (legacy f) opts f compute with
    | .error e => .error e
    | .ok col =>
      match plainRun split legacy opts compute fs with
      | .error e => .error e
      | .ok ds => .ok (⟨f, col⟩ :: ds)

/-- One call of `add_columns`: the fragments the dataset has at that time, how the batches are cut (the batch size is an argument
of the call) and the number of transactions committed before the call stops. -/
structure Attempt (α : Type) where
  frags : List (Frag α)
  split : List α → List (List α)
  budget : Nat

/-- Calls one after the other with the same checkpoint file: the store they leave and how often the user's function was called. -/
def attempts {α β : Type} (legacy : Frag α → Option Nat) (opts : Opts) (compute : List (Row α) → Except Err (List β)) :
    Store α β → Nat → List (Attempt α) → Store α β × Nat
  | s, calls, [] => (s, calls)
  | s, calls, a :: rest =>
    let w := (cachedRun a.split legacy opts compute ⟨s, a.budget, calls⟩ a.frags).1
    attempts legacy opts compute w.store w.calls rest

end Verif.Resume
