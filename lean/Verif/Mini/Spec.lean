import Verif.Mini.Model
/-!
# Mini-block pages: what is claimed

Rows are described by their slots.  Nothing here mentions chunks of bytes, blocks, instructions or
preambles, except where a restriction of the proved part has to say how the values were cut.
-/
namespace Verif.Mini

/-- One entry of a column: its repetition and definition level, and its value if it has one (null
items have one too, of no meaning; null and empty lists have none). -/
structure Slot (V : Type) where
  rep : Nat
  dfn : Nat
  val : Option V
  deriving DecidableEq, Repr

/-- The rows to write: each row is a non-empty list of slots (a single one if the column has no
lists).  `withDefs`: whether there are definition levels at all. -/
structure Rows (V : Type) where
  layers : List Layer
  withDefs : Bool
  rows : List (List (Slot V))

/-- The number of list layers. -/
def listDepth (layers : List Layer) : Nat := layers.countP Layer.isList

/-- The definition levels up to this one are of items inside the innermost list. -/
def innerLevels : List Layer → Nat
  | [] => 0
  | l :: ls => if l.isList then 0 else l.defLevels + innerLevels ls

/-- A slot has a value unless its definition level is that of a null or empty list (or of a null
around a list). -/
def SlotOk {V : Type} (r : Rows V) (s : Slot V) : Prop :=
  (s.val.isSome = true ↔ listDepth r.layers = 0 ∨ s.dfn ≤ innerLevels r.layers) ∧
  (r.withDefs = false → s.dfn = 0) ∧ s.rep < 65536 ∧ s.dfn < 65536

/-- A row starts with a slot at the highest repetition level and goes on with slots at lower ones. -/
def RowOk {V : Type} (r : Rows V) : List (Slot V) → Prop
  | [] => False
  | s :: rest => s.rep = listDepth r.layers ∧ (∀ t ∈ rest, t.rep < listDepth r.layers) ∧
      ∀ t ∈ s :: rest, SlotOk r t

/-- Rows that a writer can be given. -/
structure RowsOk {V : Type} (r : Rows V) : Prop where
  rows : ∀ row ∈ r.rows, RowOk r row
  nonempty : r.rows ≠ []
  small : r.rows.length < 2 ^ 64

/-- The levels that a list of slots stands for, as the writer is given them and as the reader should
give them back. -/
def repsOf {V : Type} (r : Rows V) (ss : List (Slot V)) : Option (List Nat) :=
  if listDepth r.layers = 0 then none else some (ss.map Slot.rep)

def defsOf {V : Type} (r : Rows V) (ss : List (Slot V)) : Option (List Nat) :=
  if r.withDefs then some (ss.map Slot.dfn) else none

/-- The values of a list of slots. -/
def valsOf {V : Type} (ss : List (Slot V)) : List V := ss.filterMap Slot.val

/-- The levels given to the writer. -/
def Rows.repDefs {V : Type} (r : Rows V) : RepDefs :=
  ⟨repsOf r r.rows.flatten, defsOf r r.rows.flatten, r.layers⟩

/-- Write the rows as a page. -/
def write {V : Type} (codec : Codec V) (r : Rows V) : Option Page :=
  writePage codec r.repDefs (valsOf r.rows.flatten)

/-- Non-empty ranges of rows, in order, each starting where the last one stopped or later, within
`n` rows. -/
def RangesOk (n : Nat) : Nat → List (Nat × Nat) → Prop
  | _, [] => True
  | at_, (s, e) :: rest => at_ ≤ s ∧ s < e ∧ e ≤ n ∧ RangesOk n e rest

/-- The rows in some ranges. -/
def selected {A : Type} (rows : List A) (ranges : List (Nat × Nat)) : List A :=
  ranges.flatMap fun r => (rows.drop r.1).take (r.2 - r.1)

/-- A list cut into batches of the given sizes. -/
def inBatches {A : Type} : List Nat → List A → List (List A)
  | [], _ => []
  | n :: rest, l => l.take n :: inBatches rest (l.drop n)

/-- What a batch of rows should be given back as. -/
def expected {V : Type} (r : Rows V) (batch : List (List (Slot V))) : Out V :=
  ⟨repsOf r batch.flatten, defsOf r batch.flatten, valsOf batch.flatten⟩

/-- Non-empty batches within `n` rows. -/
def BatchesOk (n : Nat) (batches : List Nat) : Prop := (∀ b ∈ batches, 0 < b) ∧ batches.sum ≤ n

/-- What one can rely on of a codec for some values: the values are cut into parts, of a power of two
of values each except for the last (which may hold any number), the bytes of the parts follow each
other, and each part can be decompressed from its bytes. -/
structure Cut {V : Type} (codec : Codec V) (c : Compressed) (vals : List V)
    (parts : List (List V)) (bytes : List (List Nat)) : Prop where
  values : parts.flatten = vals
  nonempty : parts ≠ []
  data : bytes.flatten = c.data
  chunks : c.chunks.length = parts.length
  lengths : bytes.length = parts.length
  sizes : ∀ k (h : k < c.chunks.length), (c.chunks[k]).numBytes = (bytes.getD k []).length ∧
    (c.chunks[k]).numBytes < 65536
  logs : ∀ k (h : k < c.chunks.length), if k + 1 = c.chunks.length then (c.chunks[k]).logNumValues = 0
    else 0 < (c.chunks[k]).logNumValues ∧ (c.chunks[k]).logNumValues < 16 ∧
      (parts.getD k []).length = 2 ^ (c.chunks[k]).logNumValues
  decode : ∀ k, k < parts.length →
    codec.decompress (bytes.getD k []) (parts.getD k []).length = some (parts.getD k [])

/-- A codec that gives back every list of values it accepts. -/
def CodecOk {V : Type} (codec : Codec V) (P : V → Prop) : Prop :=
  ∀ vals c, (∀ v ∈ vals, P v) → codec.compress vals = some c → ∃ parts bytes, Cut codec c vals parts bytes

/-- The values in the chunks before chunk `k`, as the chunk sizes say. -/
def valuesBefore (chunks : List Chunk) (k : Nat) : Nat := ((chunks.take k).map fun c => 2 ^ c.logNumValues).sum

/-- The values in the rows before row `r`. -/
def valuesBeforeRow {V : Type} (rows : List (List (Slot V))) (r : Nat) : Nat :=
  (valsOf (rows.take r).flatten).length

/-- Row `r` starts before chunk `k` (which is not the last one) and goes on to its end or further, so
that no row starts in the chunk. -/
def Fills {V : Type} (chunks : List Chunk) (rows : List (List (Slot V))) (r k : Nat) : Prop :=
  k + 1 < chunks.length ∧ valuesBeforeRow rows r < valuesBefore chunks k ∧
    valuesBefore chunks (k + 1) ≤ valuesBeforeRow rows (r + 1)

/-- Null and empty lists only appear as whole rows (as is the case if lists are not nested). -/
def FlatLists {V : Type} (r : Rows V) : Prop :=
  ∀ row ∈ r.rows, ∀ s ∈ row, s.val = none → row = [s]

end Verif.Mini
