import Verif.Fts.Wand
/-!
# Full text search: what the best documents are

Stated on posting lists as lists of entries, without the search.
-/
namespace Verif.Fts

/-- The posting list has the document. -/
def Posting.has (p : Posting) (d : Nat) : Prop := ∃ e ∈ p.list, e.row = d

/-- What a posting list contributes to the score of a document. -/
def part (contrib : Nat → Nat → Nat → Nat) (d : Nat) (p : Posting) : Nat :=
  match p.list.find? (fun e => e.row == d) with
  | some e => contrib p.list.length d e.freq
  | none => 0

/-- The score of a document: the sum over the tokens of the query. -/
def docScore (contrib : Nat → Nat → Nat → Nat) (ps : List Posting) (d : Nat) : Nat := (ps.map (part contrib d)).sum

/-- `r` are the `limit` best of the documents for which `ok` holds, by `score`; documents with the same score may be chosen freely. -/
structure TopK (ok : Nat → Prop) (score : Nat → Nat) (limit : Nat) (r : List (Nat × Nat)) : Prop where
  /-- by increasing row id, each once -/
  sorted : (r.map Prod.fst).Pairwise (· < ·)
  /-- each is one of the documents and comes with its score -/
  sound : ∀ x ∈ r, ok x.1 ∧ x.2 = score x.1
  /-- not more than asked for -/
  length : r.length ≤ limit
  /-- all documents, if there are fewer than asked for -/
  complete : r.length < limit → ∀ d, ok d → d ∈ r.map Prod.fst
  /-- none better than one of the result is left out -/
  best : ∀ d, ok d → d ∉ r.map Prod.fst → ∀ x ∈ r, score d ≤ x.2

/-- The posting lists as the index stores them: every list has increasing row ids, and its bound is a bound. -/
structure Good (contrib : Nat → Nat → Nat → Nat) (ps : List Posting) : Prop where
  sorted : ∀ p ∈ ps, (p.list.map Entry.row).Pairwise (· < ·)
  bound : ∀ p ∈ ps, ∀ e ∈ p.list, contrib p.list.length e.row e.freq ≤ p.ub

/-- The phrase is at `b`: every token of the query is at `b` plus its place in the query. -/
def phraseAt (ps : List Posting) (d : Nat) (b : Int) : Prop := ∀ p ∈ ps, ∃ e ∈ p.list, e.row = d ∧ (b + p.qpos) ∈ e.pos

/-- The positions of a token in a document are increasing. -/
def GoodPos (ps : List Posting) : Prop := ∀ p ∈ ps, ∀ e ∈ p.list, e.pos.Pairwise (· < ·)

end Verif.Fts
