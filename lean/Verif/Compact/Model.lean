import Verif.Common.Bm
import Verif.RowIds.Sequence
import Verif.Txn.Model
/-!
# Compaction

Sources: rust/lance/src/dataset/optimize.rs:96-570 (planning), 771-910 (stable row ids, commit),
rust/lance/src/dataset/optimize/remapping.rs:70-200 (row address map).
-/
namespace Verif.Compact

/-! ## Planning -/

/-- A fragment with its `FragmentMetrics` (optimize.rs:240-262). -/
structure FM where
  id : Nat
  phys : Nat
  dels : Nat
deriving DecidableEq, Repr

/-- optimize.rs:259-261 `num_rows`; deletions never exceed the rows, so that the subtraction is exact. -/
def FM.live (f : FM) : Nat := f.phys - f.dels

/-- optimize.rs:105-148 `CompactionOptions`, after `validate`.  `over d p` stands for the comparison
`d as f32 / p as f32 > threshold` of `deletion_percentage` with the threshold; any function is allowed. -/
structure Opts where
  target : Nat
  materialize : Bool
  over : Nat → Nat → Bool

/-- optimize.rs:368-373 `CompactionCandidacy`. -/
inductive Cand | neighbors | itself
deriving DecidableEq, Repr

/-- optimize.rs:497-509. -/
def Opts.candidacy (o : Opts) (f : FM) : Option Cand :=
  if o.materialize && o.over f.dels f.phys then some .itself
  else if f.phys < o.target then some .neighbors
  else none

/-- optimize.rs:476-483 `indices_containing_frag(fragment.id as u32)`. -/
def indicesOf (maps : List Bm) (id : Nat) : List Nat :=
  (maps.zipIdx.filter (fun e => e.1.has (id % 4294967296))).map (·.2)

/-- optimize.rs:376-382 `CandidateBin`.  The parallel vectors `fragments`, `candidacy` and `row_counts` are one
list; `pos_range` is never read and left out. -/
structure Bin where
  items : List (FM × Cand)
  indices : List Nat
deriving DecidableEq, Repr

def Bin.frags (b : Bin) : List FM := b.items.map (·.1)
def Bin.rows (b : Bin) : List Nat := b.items.map (·.1.live)

/-- optimize.rs:488-552, the loop over the fragments with the bin being filled. -/
def binsFrom (o : Opts) (maps : List Bm) : Option Bin → List FM → List Bin
  | cur, [] => cur.toList
  | cur, f :: fs =>
    match o.candidacy f, cur with
    | none, none => binsFrom o maps none fs
    | some c, none => binsFrom o maps (some ⟨[(f, c)], indicesOf maps f.id⟩) fs
    | some c, some b =>
      if b.indices = indicesOf maps f.id then binsFrom o maps (some { b with items := b.items ++ [(f, c)] }) fs
      else b :: binsFrom o maps (some ⟨[(f, c)], indicesOf maps f.id⟩) fs
    | none, some b => b :: binsFrom o maps none fs

/-- optimize.rs:386-397 `is_noop`. -/
def Bin.noop (b : Bin) : Bool :=
  match b.items with
  | [] => true
  | [x] => x.2 == .neighbors
  | _ => false

/-- optimize.rs:404-409: how many fragments reach `min` rows. -/
def binLen (min : Nat) : Nat → List Nat → Nat
  | _, [] => 0
  | acc, r :: rs => if acc < min then binLen min (acc + r) rs + 1 else 0

/-- optimize.rs:400-431 `split_for_size`, at most `fuel` turns of the loop; `none` when it has not ended by then. -/
def splitGo (min : Nat) : Nat → List (FM × Cand) → Option (List (List (FM × Cand)))
  | 0, _ => none
  | fuel + 1, xs =>
    let n := binLen min 0 (xs.map (·.1.live))
    if min ≤ ((xs.map (·.1.live)).drop n).sum then
      match splitGo min fuel (xs.drop n) with
      | none => none
      | some r => some (xs.take n :: r)
    else some [xs]

def splitAll (min fuel : Nat) : List Bin → Option (List (List FM))
  | [] => some []
  | b :: bs =>
    match splitGo min fuel b.items, splitAll min fuel bs with
    | some parts, some r => some (parts.map (fun p => p.map (·.1)) ++ r)
    | _, _ => none

/-- optimize.rs:458-571 `plan_compaction`: the fragments of each task; `none` when planning has not ended after
`fuel` turns of the inner loop. -/
def plan (o : Opts) (maps : List Bm) (fuel : Nat) (fs : List FM) : Option (List (List FM)) :=
  splitAll o.target fuel ((binsFrom o maps none fs).filter (fun b => !b.noop))

/-- optimize.rs:435-448 `load_index_fragmaps` for one index: its bitmap, or for indices that have none the ids
below the `max_fragment_id` of the version it was built from. -/
def fragmap (bitmap : Option Bm) (maxFragAtIndex : Nat) : Bm :=
  match bitmap with
  | some b => b
  | none => List.range maxFragAtIndex

/-! ## The row address map -/

def SIZE : Nat := 4294967296

/-- A fragment for the purposes of remapping: id and physical rows. -/
structure FR where
  id : Nat
  phys : Nat
deriving DecidableEq, Repr

/-- remapping.rs:73-79 `MissingIds`; `frags` are the fragments from `current_fragment_idx` on. -/
structure MSt where
  rest : List Nat
  expected : Nat
  frags : List FR
  last : Option Nat
deriving DecidableEq, Repr

def MSt.init (rows : List Nat) (frags : List FR) : MSt :=
  ⟨rows, (frags.head?.map (·.id)).getD 0 * SIZE, frags, none⟩

/-- remapping.rs:111-119: the row id looked at; 0 when there is none left. -/
def MSt.val (s : MSt) : Nat :=
  match s.last with
  | some v => v
  | none => s.rest.head?.getD 0

def MSt.rest' (s : MSt) : List Nat :=
  match s.last with
  | some _ => s.rest
  | none => s.rest.tail

/-- remapping.rs:130-134: the first address of the next fragment; left alone after the last. -/
def nextStart (fs : List FR) (e : Nat) : Nat :=
  match fs with
  | g :: _ => g.id * SIZE
  | [] => e

/-- remapping.rs:104-140: all values yielded; one turn of the loop per unit of fuel, `none` when it has not
ended. -/
def missing : Nat → MSt → Option (List Nat)
  | 0, _ => none
  | fuel + 1, s =>
    match s.frags with
    | [] => some []
    | f :: fs =>
      let e := s.expected
      let e' := e + 1
      let fs' := if e' % SIZE = f.phys then fs else f :: fs
      let e'' := if e' % SIZE = f.phys then nextStart fs e' else e'
      if s.val / SIZE ≠ f.id ∨ s.val ≠ e then
        match missing fuel ⟨s.rest', e'', fs', some s.val⟩ with
        | none => none
        | some r => some (e :: r)
      else missing fuel ⟨s.rest', e'', fs', none⟩

/-- remapping.rs:147-154 `new_ids`; row counts are cut to 32 bits, as are fragment ids. -/
def newIds (new : List FR) : List Nat :=
  new.flatMap (fun f => (List.range (f.phys % SIZE)).map (fun o => (f.id % SIZE) * SIZE + o))

/-- remapping.rs:142-177 `transpose_row_ids`: the map as a look-up function.  Later insertions win. -/
def transpose (fuel : Nat) (rows : List Nat) (old new : List FR) : Option (Nat → Option (Option Nat)) :=
  match missing fuel (MSt.init rows old) with
  | none => none
  | some dead => some (fun k => if k ∈ dead then some none else ((rows.zip (newIds new)).lookup k).map some)

/-- A fragment with its rows; `dead o` says that the row at offset `o` is deleted. -/
structure Data (α : Type) where
  id : Nat
  rows : List α
  dead : Nat → Bool

/-- What an ordered scan of the fragments returns, with row addresses. -/
def scan {α : Type} (old : List (Data α)) : List (Nat × α) :=
  old.flatMap (fun f =>
    (f.rows.zipIdx.filter (fun e => !f.dead e.2)).map (fun e => (f.id * SIZE + e.2, e.1)))

/-- optimize.rs:625-745 `rewrite_files` without stable row ids: the captured addresses (a `RoaringTreemap`, which
yields them in increasing order) are matched with the rows of the new fragments. -/
def rewriteMap {α : Type} (fuel : Nat) (old new : List (Data α)) : Option (Nat → Option (Option Nat)) :=
  transpose fuel (Bm.ofList ((scan old).map (·.1))) (old.map (fun f => ⟨f.id, f.rows.length⟩))
    (new.map (fun f => ⟨f.id, f.rows.length⟩))

/-- optimize.rs:855-866: the maps of the tasks are merged with `extend`, later entries replacing earlier ones. -/
def merged : List (Nat → Option (Option Nat)) → Nat → Option (Option Nat)
  | [], _ => none
  | m :: ms, k => (merged ms k).or (m k)

/-! ## Stable row ids -/

open RowIds in
/-- optimize.rs:790-802: each sequence without the positions of deleted rows. -/
def maskAll : List (Seq × List Nat) → Option (List Seq)
  | [] => some []
  | (q, dels) :: r =>
    match (if dels = [] then some q else Seq.mask q dels), maskAll r with
    | some q', some r' => some (q' :: r')
    | _, _ => none

open RowIds in
/-- optimize.rs:771-829 `rechunk_stable_row_ids`: the sequences of the new fragments, of the given sizes.  A
fragment without deletion file has an empty list of deletions. -/
def rechunkStable (old : List (Seq × List Nat)) (sizes : List Nat) : Option (List Seq) :=
  match maskAll old with
  | none => none
  | some qs =>
    match Seq.rechunk qs sizes with
    | .error _ => none
    | .ok cs => some cs

/-! ## Commit -/

/-- optimize.rs:574-585 `RewriteResult`. -/
structure Result where
  old : List Txn.Frag
  new : List Txn.Frag
  read : Nat
deriving DecidableEq, Repr

/-- optimize.rs:838-910 `commit_compaction`: the transaction, given the version of the dataset handle.  The read
version of the tasks is not used. -/
def commitTx (handle : Nat) (uuid : Nat) (tasks : List Result) (rewritten : List (Nat × Nat)) : Txn.Tx :=
  { read := handle, uuid, op := .rewrite (tasks.map (fun t => ⟨t.old, t.new⟩)) rewritten, tag := none, stable := false }

end Verif.Compact
