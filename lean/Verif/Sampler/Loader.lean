import Verif.Sampler.Model
/-!
# Batches for TensorFlow, and the sharded iterator

Models `python/python/lance/tf/data.py` (250-384: `_ith_batch`, `from_lance_batches`,
`lance_take_batches`) and `python/python/lance/_dataset/sharded_batch_iterator.py` (110-152).  Not modelled:
the conversion of columns to tensors, `tf.data` itself (a dataset made from a generator calls the generator
once for every pass over it), `columns`.
-/
namespace Verif.Sampler
open Verif

/-- tf/data.py:250-259 `_ith_batch`. -/
def ithBatch (batchSize total i : Nat) : Nat × Nat := (i * batchSize, min (i * batchSize + batchSize) total)

/-- tf/data.py:262-303 `from_lance_batches`, one pass: `shuffle` is what `indices.shuffle` does in this pass.
(`batch_size = 0` raises in Python; the theorems ask for positive sizes.) -/
def tfBatches (total batchSize skip : Nat) (shuffle : List Nat → List Nat) : List (Nat × Nat) :=
  let n := (total + (batchSize - 1)) / batchSize
  ((shuffle (List.range n)).drop skip).map (ithBatch batchSize total)

/-- What can be given to `lance_take_batches` as `batch_ranges`. -/
inductive Source where
  /-- a list or a dataset: every pass starts over, pass `k` gives `pass k` (a shuffled dataset is shuffled
  again) -/
  | again (pass : Nat → List (Nat × Nat)) (k : Nat)
  /-- an iterator such as the `as_numpy_iterator()` of the example in the documentation: what is left -/
  | once (left : List (Nat × Nat))

/-- tf/data.py:360-362 `gen_ranges`, run to the end. -/
def Source.run : Source → List (Nat × Nat) × Source
  | .again pass k => (pass k, .again pass (k + 1))
  | .once left => (left, .once [])

/-- tf/data.py:306-384 `lance_take_batches`: the batches of `n` passes over the dataset one after the other. -/
def tfPasses {α : Type} (split : List α → List (List α)) (frags : List (Read.Frag α)) :
    Nat → Source → Except Take.Fault (List (List (List α)))
  | 0, _ => .ok []
  | n + 1, src => match takeScan split frags src.run.1 with
    | .error e => .error e
    | .ok b => match tfPasses split frags n src.run.2 with
      | .error e => .error e
      | .ok bs => .ok (b :: bs)

/-- sharded_batch_iterator.py:110-121 `_iter_over_fragments`; `scan` is `to_batches`. -/
def shardFragments {α : Type} (scan : Read.Frag α → List (List α)) (frags : List (Read.Frag α)) (rank size : Nat) :
    List (List α) :=
  ((pyRange rank frags.length size).filterMap (fun i => frags[i]?)).flatMap scan

/-- sharded_batch_iterator.py:123-143 `_iter_over_batches`. -/
def shardBatches {α : Type} (split : List α → List (List α)) (frags : List (Read.Frag α)) (batchSize rank size : Nat) :
    Except Take.Fault (List (List α)) :=
  takeScan split frags ((pyRange (rank * batchSize) ((frags.map Read.countRows).sum) (size * batchSize)).map
    (fun s => (s, min (s + batchSize) ((frags.map Read.countRows).sum))))

end Verif.Sampler
