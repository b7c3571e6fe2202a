import Verif.Vec.Search
/-!
# Vector indices: what they should hold and what a search should return

Stated on the rows of the dataset and on what a partition of an index file loads to.
-/
namespace Verif.Vec

/-- The training gives partitions below the number of partitions; a scan returns its rows in order, in batches with rows. -/
structure Cfg.Valid {V C : Type} (c : Cfg V C) : Prop where
  pos : 0 < c.nparts
  part : ∀ v p, c.part v = some p → p < c.nparts
  split : ∀ l, (c.split l).flatten = l
  batches : ∀ l, ∀ b ∈ c.split l, b ≠ []

/-- The partition a vector belongs to. -/
def Cfg.pid {V C : Type} (c : Cfg V C) (v : V) : Nat := (c.part (c.norm v)).getD 0

/-- What is quantized for a vector when an index is built. -/
def Cfg.fresh {V C : Type} (c : Cfg V C) (v : V) : V := c.resid (c.pid v) (c.norm v)

/-- All rows of an index file with their partitions. -/
def IndexFile.entries {C : Type} (x : IndexFile C) : List (Nat × Addr × C) :=
  (List.range x.nparts).flatMap (fun p => ((x.load p).getD []).map (fun r => (p, r)))

/-- How often the deltas have the row. -/
def occurrences {C : Type} (ds : List (Delta C)) (a : Addr) : Nat := (ds.flatMap (fun d => d.file.entries)).countP (fun e => e.2.1 == a)

/-- The fragment is covered by a delta. -/
def covered {C : Type} (ds : List (Delta C)) (i : Nat) : Bool := (ds.flatMap Delta.bitmap).contains i

/-- The history only builds indices that are trained properly. -/
def Trained {V C : Type} (ops : List (Op V C)) : Prop := ∀ op ∈ ops, ∀ c, op = .create c → c.Valid

/-- The history never calls `optimize_indices` when all fragments are covered, and trains properly. -/
def Fresh {V C : Type} (s : State V C) : List (Op V C) → Prop
  | [] => True
  | op :: ops =>
    (match op with
      | .optimize _ => ∀ c ds, s.index = some (c, ds) → unindexed s.frags ds ≠ []
      | .create c => c.Valid
      | _ => True) ∧ Fresh ((s.step op).getD s) ops

/-- No `optimize_indices` of the history merges deltas. -/
def NoMerge {V C : Type} (ops : List (Op V C)) : Prop := ∀ op ∈ ops, ∀ n, op = .optimize n → n = 0

/-- Codes are as far as their vectors: the index stores the vectors (`IVF_FLAT`), and the distance does not see the normalization. -/
structure Flat {V C : Type} (c : Cfg V C) (m : Dist V C) : Prop where
  fresh : ∀ v, m.code (c.pid v) (c.quant (c.fresh v)) = m.dist v
  raw : ∀ v, m.code (c.pid v) (c.quant v) = m.dist v

/-- The distance is at least the lower bound, if there is one, and below the upper bound, if there is one. -/
def Between (lower upper : Option Nat) (d : Nat) : Prop := (∀ l, lower = some l → l ≤ d) ∧ ∀ u, upper = some u → d < u

instance (lower upper : Option Nat) (d : Nat) : Decidable (Between lower upper d) :=
  decidable_of_iff ((lower.all (fun l => decide (l ≤ d)) && upper.all (fun u => decide (d < u))) = true)
    (by cases lower <;> cases upper <;> simp [Between])

/-- The live rows with a vector that the query asks for, with their distances. -/
def Query.candidates {V C : Type} (q : Query) (m : Dist V C) (s : State V C) : List (Addr × Nat) :=
  (vectorsOf s.frags).filterMap (fun r =>
    if q.fragments.all (fun ids => ids.contains r.1.1) && q.filter.all (fun p => p r.1) && decide (Between q.lower q.upper (m.dist r.2)) then some (r.1, m.dist r.2) else none)

/-- `r` are the `k` nearest of the candidates, in increasing order; candidates with the same distance may be chosen freely. -/
structure Nearest (k : Nat) (cands r : List (Addr × Nat)) : Prop where
  sorted : (r.map Prod.snd).Pairwise (· ≤ ·)
  length : r.length = min k cands.length
  best : ∃ rest, (r ++ rest).Perm cands ∧ ∀ x ∈ r, ∀ y ∈ rest, x.2 ≤ y.2

end Verif.Vec
