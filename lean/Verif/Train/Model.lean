/-!
# Sampling vectors to train an index

Source: rust/lance/src/index/vector/utils.rs:109-225 `maybe_sample_training_data`, 253-316
`random_ranges`; rust/lance/src/dataset.rs:898-903 `sample`; rust/lance/src/dataset/take.rs:400-428
`take_scan`; rust/lance-arrow/src/lib.rs:744-766 `interleave_batches`.

A row is a position among the rows that are not deleted, as `take` numbers them (C31 is about `take`).
The random choices are arguments, and the statements are for all of them.

Not modelled: overflow of `sample_size_hint * 5`, the vectors themselves, and that a column of lists of
vectors is flattened in the end.
-/
namespace Verif.Train

/-- utils.rs:259: `none` is the division by zero for vectors without elements. -/
def rowsPerBatch (blockSize byteWidth : Nat) : Option Nat :=
  if byteWidth = 0 then none else some (max 1 (blockSize / byteWidth))

/-- utils.rs:261 `num_rows.div_ceil(rows_per_batch)`. -/
def numBins (numRows rows : Nat) : Nat := (numRows + (rows - 1)) / rows

/-- utils.rs:281-293: `draws` are the numbers that the generator gives one after the other; the result is
what has been returned when these have been used up. -/
def additional (bins : Nat) : List Nat → List Nat → List Nat
  | _, [] => []
  | seen, d :: ds =>
    if seen.length ≥ bins then []
    else if d ∈ seen then additional bins seen ds
    else d :: additional bins (d :: seen) ds

/-- The random choices. -/
structure Dice where
  /-- `indices.shuffle` -/
  shuffle : List Nat → List Nat
  /-- `(0..n).choose_multiple(k)`: fewer than `k` only if there are not so many -/
  choose : Nat → Nat → List Nat
  /-- the numbers chosen one by one -/
  draws : List Nat
  shuffle_perm : ∀ l, (shuffle l).Perm l
  choose_nodup : ∀ n k, (choose n k).Nodup
  choose_lt : ∀ n k, ∀ i ∈ choose n k, i < n
  choose_len : ∀ n k, (choose n k).length = min k n

/-- utils.rs:263-298, the bins in the order in which they are read. -/
def bins (D : Dice) (numRows hint rows : Nat) : List Nat :=
  let n := numBins numRows rows
  if hint * 5 ≥ numRows then D.shuffle (List.range n)
  else
    let start := D.choose n (hint / rows)
    start ++ additional n start D.draws

/-- utils.rs:300-305. -/
def binRange (numRows rows i : Nat) : Nat × Nat := (i * rows, min ((i + 1) * rows) numRows)

/-- utils.rs:253-306 `random_ranges`. -/
def randomRanges (D : Dice) (numRows hint blockSize byteWidth : Nat) : Option (List (Nat × Nat)) :=
  (rowsPerBatch blockSize byteWidth).map (fun rows => (bins D numRows hint rows).map (binRange numRows rows))

/-- take.rs:414, the rows of a range. -/
def rowsOf (r : Nat × Nat) : List Nat := List.range' r.1 (r.2 - r.1)

/-- utils.rs:157-190, the loop over the batches: the valid rows of the batches up to the one with which
there are enough. -/
def collect (hint : Nat) (isNull : Nat → Bool) : Nat → List (List Nat) → List Nat
  | _, [] => []
  | found, b :: bs =>
    let valid := b.filter (fun i => !isNull i)
    let found := found + valid.length
    if found ≥ hint then valid else valid ++ collect hint isNull found bs

/-- utils.rs:109-211 `maybe_sample_training_data`: the rows whose vectors are used; `none` is an error.
`interleave_batches` of no batches is an error. -/
def sampleRows (D : Dice) (numRows hint blockSize byteWidth : Nat) (nullable : Bool) (isNull : Nat → Bool) :
    Option (List Nat) :=
  if numRows > hint ∧ nullable = false then some (D.choose numRows hint)
  else if numRows > hint ∧ nullable = true then
    match randomRanges D numRows hint blockSize byteWidth with
    | none => none
    | some ranges =>
      let rows := collect hint isNull 0 (ranges.map rowsOf)
      if rows = [] then none else some rows
  else some ((List.range numRows).filter (fun i => !(nullable && isNull i)))

end Verif.Train
