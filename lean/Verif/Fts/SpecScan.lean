import Verif.Fts.Scan
import Verif.Fts.SpecIndex
/-!
# Full text search: what a scan returns
-/
namespace Verif.Fts

/-- A source of results: which rows it has, with which score. -/
structure Src where
  ok : Nat → Prop
  score : Nat → Nat

/-- The best `k` rows, by decreasing score; a row that several sources have counts with its greatest score. -/
structure Ranked (srcs : List Src) (k : Nat) (r : List (Nat × Nat)) : Prop where
  /-- each row once -/
  nodup : (r.map Prod.fst).Nodup
  /-- best first -/
  desc : r.Pairwise (fun a b => b.2 ≤ a.2)
  /-- each is a row of a source, and comes with its greatest score -/
  sound : ∀ x ∈ r, (∃ s ∈ srcs, s.ok x.1 ∧ x.2 = s.score x.1) ∧ ∀ s ∈ srcs, s.ok x.1 → s.score x.1 ≤ x.2
  /-- not more than asked for -/
  length : r.length ≤ k
  /-- all rows, if there are fewer than asked for -/
  complete : r.length < k → ∀ s ∈ srcs, ∀ d, s.ok d → d ∈ r.map Prod.fst
  /-- none better than one of the result is left out -/
  best : ∀ s ∈ srcs, ∀ d, s.ok d → d ∉ r.map Prod.fst → ∀ x ∈ r, s.score d ≤ x.2

/-- The row without index has a token of the query. -/
def URow.matches (u : URow) (query : List Tok) : Prop := ∃ ts, u.toks = some ts ∧ ∃ t ∈ query, t ∈ ts

/-- What is searched in a column whose index was given the documents `c`: the selected documents of the index, by their BM25 score, and the
rows without index. -/
def ColIn.srcs (wt : Nat → Nat → Nat → Nat → Nat → Nat) (query : List Tok) (col : ColIn) (c : List Doc) : List Src :=
  [{ ok := fun row => col.mask row = true ∧ ∃ d ∈ c, d.row = row ∧ ∃ t ∈ query, t ∈ d.toks.map (·.1)
     score := rowScore wt c query },
   { ok := fun row => ∃ u ∈ col.rest, u.row = row ∧ u.matches query
     score := fun row => match col.rest.find? (fun u => u.row == row) with
       | some u => flatScore wt col.index query u.toks
       | none => 0 }]

end Verif.Fts
