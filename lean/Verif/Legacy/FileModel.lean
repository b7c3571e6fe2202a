import Verif.Legacy.Column
/-! Model of the batches of a legacy file: `FileWriter::write` of `rust/lance-file/src/writer.rs`, `read_range` and `take`
of `rust/lance-file/src/reader.rs` and `Metadata` of `rust/lance-file/src/format/metadata.rs`.

Not modelled: that offsets of batches are `i32`, the schema checks of `write`, and that the offsets of concatenated
arrays can overflow.  What is read of a file has all its columns. -/
namespace Verif.Legacy

/-- A file with batches: the pages, `batch_offsets` of the metadata and the next batch id. -/
structure LFile where
  file : File
  offsets : List Nat
  next : Nat
deriving Repr

/-- A new file, writer.rs 97-138.  The file begins with nothing. -/
def LFile.new : LFile := ⟨⟨[], []⟩, [], 0⟩

/-- `push_batch_length`, metadata.rs 105-111. -/
def pushLength (offsets : List Nat) (n : Nat) : List Nat :=
  let os := if offsets.isEmpty then [0] else offsets
  os ++ [n + os.getLastD 0]

/-- `write`, writer.rs 168-235: record batches that become one batch of the file. -/
def LFile.write (t : CTy) (arrs : List Arr) (f : LFile) : LFile :=
  if arrs.isEmpty then f else ⟨Verif.Legacy.write f.next t arrs f.file, pushLength f.offsets (total arrs), f.next + 1⟩

/-- Calls of `write`. -/
def LFile.writeAll (t : CTy) : List (List Arr) → LFile → LFile
  | [], f => f
  | b :: bs, f => LFile.writeAll t bs (f.write t b)

/-- `num_batches`, metadata.rs 87-93. -/
def LFile.numBatches (f : LFile) : Nat := f.offsets.length - 1

/-- `len`, metadata.rs 96-98. -/
def LFile.len (f : LFile) : Nat := f.offsets.getLastD 0

/-- What `binary_search` and `unwrap_or_else(|x| x - 1)` can return, metadata.rs 177-179: any place with the value, or the
one before the place where it would be. -/
def Found (offsets : List Nat) (s b : Nat) : Prop :=
  offsets[b]? = some s ∨ (s ∉ offsets ∧ ∃ o, offsets[b]? = some o ∧ o < s ∧ ∀ o', offsets[b + 1]? = some o' → s < o')

/-- The loop of `range_to_batches`, metadata.rs 182-191, over the offsets from a batch on. -/
def rangeLoop (s e : Nat) : Nat → List Nat → List (Nat × Nat × Nat)
  | bid, o :: o2 :: rest => if o ≥ e then [] else (bid, max s o - o, min e o2 - o) :: rangeLoop s e (bid + 1) (o2 :: rest)
  | _, _ => []

/-- `range_to_batches`, metadata.rs 165-193, where the search gives `b`; without batches `last().unwrap()` panics. -/
def rangeToBatches (offsets : List Nat) (s e b : Nat) : Option (List (Nat × Nat × Nat)) := do
  let last ← offsets.getLast?
  if e > last then none else some (rangeLoop s e b (offsets.drop b))

/-- `read_range`, reader.rs 280-302, where the search gives `b`. -/
def readRange (f : LFile) (block minIo : Nat) (t : CTy) (s e b : Nat) : Option (List Val) :=
  if s ≥ e then some [] else do
    let bs ← rangeToBatches f.offsets s e b
    let parts ← bs.mapM (fun x => readCol f.file block minIo x.1 t (.range x.2.1 x.2.2))
    some parts.flatten

/-- The inner loop of `group_indices_to_batches`, metadata.rs 139-142, over the offsets after batch `bid`. -/
def advance (i : Nat) : Nat → List Nat → Nat
  | bid, [] => bid
  | bid, o :: rest => if i ≥ o then advance i (bid + 1) rest else bid

/-- The batch of each index. -/
def assign (offsets : List Nat) : Nat → List Nat → List (Nat × Nat)
  | _, [] => []
  | bid, i :: is => (advance i bid (offsets.drop (bid + 1)), i) :: assign offsets (advance i bid (offsets.drop (bid + 1))) is

/-- `entry(batch_id).and_modify(push).or_insert` on the tree map, as a list that is ordered by the batch. -/
def pushKey (b i : Nat) : List (Nat × List Nat) → List (Nat × List Nat)
  | [] => [(b, [i])]
  | (k, is) :: g => if b = k then (k, is ++ [i]) :: g else if b < k then (b, [i]) :: (k, is) :: g else (k, is) :: pushKey b i g

/-- The tree map of the indices. -/
def groups (xs : List (Nat × Nat)) : List (Nat × List Nat) := xs.foldl (fun g x => pushKey x.1 x.2 g) []

/-- Inserts in order. -/
def insertAsc (i : Nat) : List Nat → List Nat
  | [] => [i]
  | j :: js => if i ≤ j then i :: j :: js else j :: insertAsc i js

/-- `sort_unstable` of the indices, metadata.rs 132-134; the way it sorts makes no difference. -/
def sortAsc : List Nat → List Nat
  | [] => []
  | i :: is => insertAsc i (sortAsc is)

/-- `take`, reader.rs 308-336, with `group_indices_to_batches`, metadata.rs 127-163.  An index of a batch that is not there
is an error, and without batches `batch_offsets[0]` panics. -/
def takeRows (f : LFile) (block minIo : Nat) (t : CTy) (is : List Nat) : Option (List Val) := do
  let gs ← (groups (assign f.offsets 0 (sortAsc is))).mapM (fun g => do
    let o ← f.offsets[g.1]?
    some (g.1, g.2.map (· - o)))
  let parts ← gs.mapM (fun g =>
    if g.1 ≥ f.numBatches then none
    else if g.2.getLastD 0 > f.len then none
    else readCol f.file block minIo g.1 t (.indices g.2))
  some parts.flatten

end Verif.Legacy
