import Verif.Vec.Model
/-!
# Vector indices: what can happen to a dataset with a vector index

`optimize_indices` (`rust/lance/src/index.rs` 494-572), `merge_indices` (`rust/lance/src/index/append.rs` 33-155),
`optimize_vector_indices_v2` (`rust/lance/src/index/vector/ivf.rs` 333-462), the remapping of indices by a compaction
(`rust/lance/src/dataset/index.rs` 47-74, `rust/lance/src/index.rs` 93-156).
-/
namespace Verif.Vec

/-- A delta index: its file, and the ids of the fragments it covers (`IndexMetadata::fragment_bitmap`). -/
structure Delta (C : Type) where
  file : IndexFile C
  bitmap : List Nat

/-- A dataset (fragments and the next fragment id) and the index on its vector column: what it was trained to, and its deltas in order. -/
structure State (V C : Type) where
  frags : List (Frag V)
  next : Nat
  index : Option (Cfg V C × List (Delta C))

def State.init (V C : Type) : State V C := ⟨[], 0, none⟩

/-- What can happen.  An update of rows is a deletion and an append (see C33). -/
inductive Op (V C : Type) where
  /-- a fragment is written -/
  | append (rows : List (Option V))
  /-- rows are deleted -/
  | delete (p : Addr → Bool)
  /-- an index is built, in place of the one before -/
  | create (c : Cfg V C)
  /-- `optimize_indices` with `num_indices_to_merge` -/
  | optimize (n : Nat)
  /-- these fragments are compacted to one -/
  | compact (group : List Nat)

/-- `append` (the ids of new fragments: `rust/lance/src/dataset/transaction.rs` 540-560). -/
def State.append {V C : Type} (s : State V C) (rows : List (Option V)) : State V C :=
  { s with
    frags := s.frags ++ [⟨s.next, rows, []⟩]
    next := s.next + 1 }

/-- The fragment after the deletion of the rows with `p` (see C48). -/
def Frag.delete {V : Type} (p : Addr → Bool) (f : Frag V) : Frag V :=
  { f with dels := f.dels ++ (List.range f.rows.length).filter (fun o => p (f.id, o) && !f.dels.contains o) }

/-- All rows of the fragment are deleted. -/
def Frag.gone {V : Type} (f : Frag V) : Bool := (List.range f.rows.length).all (fun o => f.dels.contains o)

/-- `delete`: a fragment without rows is dropped (`rust/lance/src/dataset.rs` and `io/exec`, see C48); the bitmaps of the indices stay as they are. -/
def State.delete {V C : Type} (s : State V C) (p : Addr → Bool) : State V C :=
  { s with frags := (s.frags.map (Frag.delete p)).filter (fun f => !f.gone) }

/-- `create_index` with `replace` (`rust/lance/src/index.rs` 190-330): all fragments are covered. -/
def State.create {V C : Type} (s : State V C) (c : Cfg V C) : Option (State V C) :=
  match c.build s.frags [] none with
  | none => none
  | some x => some { s with index := some (c, [⟨x, s.frags.map Frag.id⟩]) }

/-- `DatasetIndexInternalExt::unindexed_fragments` (`rust/lance/src/index.rs` 1005-1020). -/
def unindexed {V C : Type} (frags : List (Frag V)) (ds : List (Delta C)) : List (Frag V) :=
  frags.filter (fun f => !(ds.flatMap Delta.bitmap).contains f.id)

/-- `optimize_indices` for one index: the last `n` deltas and the unindexed fragments become a delta.  There is no stream if no fragment is
unindexed. -/
def State.optimize {V C : Type} (s : State V C) (n : Nat) : Option (State V C) :=
  match s.index with
  | none => some s
  | some (c, ds) =>
    let start := ds.length - n
    let un := unindexed s.frags ds
    let data := if un.isEmpty then none else some (vectorsOf un)
    match c.build s.frags ((ds.drop start).map Delta.file) data with
    | none => none
    | some x => some { s with index := some (c, ds.take start ++ [⟨x, un.map Frag.id ++ (ds.drop start).flatMap Delta.bitmap⟩]) }

/-- The map from old to new addresses: the rows of the compacted fragments get the offsets in the new fragment in order, a deleted row has no new
address, other rows are not in the map (`rust/lance/src/dataset/optimize.rs`, see C26). -/
def compactMap {V : Type} (group : List (Frag V)) (new : Nat) (a : Addr) : Option (Option Addr) :=
  match group.find? (fun f => f.id == a.1) with
  | none => none
  | some f =>
    if f.rows.length ≤ a.2 then none
    else some (((group.flatMap Frag.scan).findIdx? (fun r => r.1 == a)).map (fun i => (new, i)))

/-- The delta after a compaction (`DatasetIndexRemapper::remap_indices`): it is remapped if it covers a compacted fragment.  A group is covered
completely or not at all, otherwise the commit fails (see C25 and C27). -/
def Delta.compact {V C : Type} (group : List (Frag V)) (new : Nat) (d : Delta C) : Option (Delta C) :=
  if group.any (fun f => d.bitmap.contains f.id) then
    if group.all (fun f => d.bitmap.contains f.id) then
      (d.file.remap (compactMap group new)).map (fun x => ⟨x, d.bitmap.filter (fun i => !(group.map Frag.id).contains i) ++ [new]⟩)
    else none
  else some d

/-- `compact_files` with one group.  Simplified: the new fragment is put at the end. -/
def State.compact {V C : Type} (s : State V C) (ids : List Nat) : Option (State V C) :=
  let group := s.frags.filter (fun f => ids.contains f.id)
  if group.isEmpty then some s
  else
    let index := match s.index with
      | none => some none
      | some (c, ds) => (ds.mapM (Delta.compact group s.next)).map (fun ds' => some (c, ds'))
    index.map (fun ix =>
      { frags := s.frags.filter (fun f => !ids.contains f.id) ++ [⟨s.next, (group.flatMap Frag.scan).map Prod.snd, []⟩]
        next := s.next + 1
        index := ix })

/-- One operation; `none` is a panic or an error. -/
def State.step {V C : Type} (s : State V C) : Op V C → Option (State V C)
  | .append rows => some (s.append rows)
  | .delete p => some (s.delete p)
  | .create c => s.create c
  | .optimize n => s.optimize n
  | .compact ids => s.compact ids

/-- A history: an operation that fails commits nothing. -/
def State.run {V C : Type} (s : State V C) : List (Op V C) → State V C
  | [] => s
  | op :: ops => ((s.step op).getD s).run ops

end Verif.Vec
