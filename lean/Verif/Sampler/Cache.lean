/-!
# Cached iteration

Models `python/python/lance/_dataset/cache.py` (12-75).  The cache file holds the batches written to it; Arrow IPC
reads back what was written.  Not modelled: `close` (which deletes the file).
-/
namespace Verif.Sampler

/-- An iterator over the cached dataset, as far as it got: the batches it yielded and what it does next. -/
inductive Iter (α : Type) where
  /-- no `next` yet -/
  | fresh
  /-- cache.py:56-63: reading the original stream -/
  | first (yielded : List α)
  /-- cache.py:72-75: reading the cache file -/
  | reading (yielded rest : List α)
  /-- the iteration ended -/
  | done (yielded : List α)
  /-- it raised -/
  | failed (yielded : List α)

/-- `stream`: what is left of the original stream; `cache`: the batches in the cache file, if there is one. -/
structure Cached (α : Type) where
  stream : List α
  cache : Option (List α)
  finished : Bool
  iters : Nat → Iter α

def Cached.init {α : Type} (stream : List α) : Cached α := ⟨stream, none, false, fun _ => .fresh⟩

def updIter {α : Type} (f : Nat → Iter α) (i : Nat) (x : Iter α) : Nat → Iter α := fun j => if j = i then x else f j

/-- cache.py:57-65: the next batch of the original stream, for an iterator that yielded `ys`.  Its `writer` is set
exactly if it yielded something; `writer.close()` raises otherwise. -/
def nextFirst {α : Type} (s : Cached α) (i : Nat) (ys : List α) : Cached α :=
  match s.stream with
  | b :: rest =>
    { s with stream := rest,
             cache := some ((if ys = [] then [] else s.cache.getD []) ++ [b]),
             iters := updIter s.iters i (.first (ys ++ [b])) }
  | [] =>
    if ys = [] then { s with iters := updIter s.iters i (.failed ys) }
    else { s with finished := true, iters := updIter s.iters i (.done ys) }

/-- cache.py:73-75: the next batch of the cache file. -/
def nextRead {α : Type} (s : Cached α) (i : Nat) (ys : List α) : List α → Cached α
  | b :: rest => { s with iters := updIter s.iters i (.reading (ys ++ [b]) rest) }
  | [] => { s with iters := updIter s.iters i (.done ys) }

/-- cache.py:53-75 `__iter__`: iterator `i` is asked for its next batch. -/
def Cached.next {α : Type} (s : Cached α) (i : Nat) : Cached α :=
  match s.iters i with
  | .fresh => match s.cache with
    | none => nextFirst s i []
    | some file => if s.finished then nextRead s i [] file else { s with iters := updIter s.iters i (.failed []) }
  | .first ys => nextFirst s i ys
  | .reading ys rest => nextRead s i ys rest
  | .done _ => s
  | .failed _ => s

/-- A history of calls. -/
def Cached.run {α : Type} (s : Cached α) (calls : List Nat) : Cached α := calls.foldl Cached.next s

end Verif.Sampler
