import Verif.Fts.Build
import Verif.Fts.Spec
/-!
# Full text search: documents, histories of an index, scores of documents

Stated on lists of documents.
-/
namespace Verif.Fts

/-- The new row id of a document: `none` if it is deleted. -/
def newRow (m : List (Nat × Option Nat)) (r : Nat) : Option Nat :=
  match (m.find? (fun kv => kv.1 == r)).map (·.2) with
  | some v => v
  | none => some r

/-- The documents after their rows got other ids, or were deleted. -/
def remapDocs (m : List (Nat × Option Nat)) (c : List Doc) : List Doc :=
  c.filterMap (fun d => (newRow m d.row).map (fun r => { d with row := r }))

/-- The mapping does not name a row twice, and new row ids are new. -/
structure FreshMap (m : List (Nat × Option Nat)) (rows : List Nat) : Prop where
  keys : (m.map (·.1)).Nodup
  vals : (m.filterMap (·.2)).Nodup
  fresh : ∀ v ∈ m.filterMap (·.2), v ∉ rows ∧ v ∉ m.map (·.1)

/-- The weight does not decrease when there are more tokens in all: documents are then comparatively shorter. -/
def Mono (wt : Nat → Nat → Nat → Nat → Nat → Nat) : Prop := ∀ n t t' l dl f, t ≤ t' → wt n t l dl f ≤ wt n t' l dl f

/-- What an index has gone through, with the documents it was given: it was created, documents were added, row ids were changed by a
compaction.  Row ids of documents are distinct. -/
inductive Reach (wt : Nat → Nat → Nat → Nat → Nat → Nat) (withPos : Bool) : Index → List Doc → Prop
  | new : Reach wt withPos emptyIndex []
  | update {x : Index} {c : List Doc} (s : Sched) (docs : List Doc) : Reach wt withPos x c → s.Valid withPos x docs →
      ((c ++ docs).map Doc.row).Nodup → Reach wt withPos (update wt withPos s x) (c ++ docs)
  | remap {x : Index} {c : List Doc} (m : List (Nat × Option Nat)) : Reach wt withPos x c → FreshMap m (c.map Doc.row) →
      Reach wt withPos (remap wt m x) (remapDocs m c)

/-- How often the document has the token. -/
def tf (d : Doc) (t : Tok) : Nat := (d.toks.filter (fun x => x.1 == t)).length

/-- In how many documents the token is. -/
def df (c : List Doc) (t : Tok) : Nat := (c.filter (fun d => tf d t != 0)).length

/-- The number of tokens of all documents. -/
def tokensOf (c : List Doc) : Nat := (c.map (fun d => d.toks.length)).sum

/-- The score of a document: over the distinct tokens of the query that it has. -/
def bm25 (wt : Nat → Nat → Nat → Nat → Nat → Nat) (c : List Doc) (query : List Tok) (d : Doc) : Nat :=
  (query.eraseDups.map (fun t => if tf d t = 0 then 0 else wt c.length (tokensOf c) (df c t) d.toks.length (tf d t))).sum

/-- The score of a row. -/
def rowScore (wt : Nat → Nat → Nat → Nat → Nat → Nat) (c : List Doc) (query : List Tok) (row : Nat) : Nat :=
  match c.find? (fun d => d.row == row) with
  | some d => bm25 wt c query d
  | none => 0

/-- The phrase is in the document: its tokens are at consecutive positions. -/
def Doc.hasPhrase (d : Doc) (query : List Tok) : Prop := ∃ b : Int, ∀ (i : Nat) (t : Tok), query[i]? = some t → (t, b + (i : Int)) ∈ d.toks

end Verif.Fts
