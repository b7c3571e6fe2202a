import Verif.Fts.Build
/-!
# Full text search: the plan of a scan

Models `Scanner::fts` and the stages after it (`rust/lance/src/dataset/scanner.rs:1340-1352, 1449-1490, 1516-1664, 2322-2329`),
`FtsExec`/`FlatFtsExec` (`rust/lance/src/io/exec/fts.rs:142-210, 320-355`) and the search of rows without an index (`flat_bm25_search`,
`rust/lance-index/src/scalar/inverted/index.rs:1018-1115`).  One index per column (`indices[0]`).  Scores are natural numbers.  The physical
plan refers to columns by their place, so batches are rows of values.
-/
namespace Verif.Fts

/-- A value of a batch; `other` stands for all types that are neither. -/
inductive Val where
  | u64 (n : Nat)
  | f32 (n : Nat)
  | other (n : Nat)
deriving DecidableEq, Repr

/-- A row of a fragment without index: the columns of the prefilter (after it was applied, scanner.rs:1588-1617), the row id, and the
tokens of the text, `none` for null. -/
structure URow where
  filterCols : List Val
  row : Nat
  toks : Option (List Tok)

/-- A column to search: the index with its selected rows (fts.rs:160-186), and the rows without index. -/
structure ColIn where
  index : Index
  withPos : Bool
  mask : Nat → Bool
  rest : List URow

/-- index.rs:1029-1062: the score of a row without index.  The length of the document is the number of its tokens that are in the query.  A
token the index does not know has the weight of one that is in one document. -/
def flatScore (wt : Nat → Nat → Nat → Nat → Nat → Nat) (x : Index) (query : List Tok) (toks : Option (List Tok)) : Nat :=
  match toks with
  | none => 0
  | some ts =>
    let ts := ts.filter (fun t => query.contains t)
    (query.eraseDups.map (fun t =>
      let f := (ts.filter (fun y => y == t)).length
      let len := match SMap.get t x.tokens.map with
        | some id => x.postingLen id
        | none => 1
      if f = 0 then 0 else wt x.docs.count.length x.docs.total len ts.length f)).sum

/-- index.rs:1065-1111: the batch without the text column and with the score, rows with a score. -/
def flatBatch (wt : Nat → Nat → Nat → Nat → Nat → Nat) (query : List Tok) (col : ColIn) : List (List Val) :=
  (col.rest.map (fun u => (u, flatScore wt col.index query u.toks))).filterMap (fun us =>
    if 0 < us.2 then some (us.1.filterCols ++ [.u64 us.1.row, .f32 us.2]) else none)

/-- The group expression is column 0 and the aggregate reads column 1 (scanner.rs:1629-1650); a value of another type is a panic. -/
def readRow : List Val → Option (Nat × Nat)
  | .u64 r :: .f32 s :: _ => some (r, s)
  | _ => none

def readRows : List (List Val) → Option (List (Nat × Nat))
  | [] => some []
  | v :: vs =>
    match readRow v, readRows vs with
    | some x, some xs => some (x :: xs)
    | _, _ => none

/-- What the union has of one column. -/
def colRows (wt : Nat → Nat → Nat → Nat → Nat → Nat) (lib : Lib) (phrase : Bool) (limit : Nat) (scale : Nat → Nat) (query : List Tok)
    (col : ColIn) : Option (List (Nat × Nat)) :=
  match col.index.fullTextSearch wt col.withPos lib col.mask phrase limit scale query with
  | .ok (some r) => (readRows (flatBatch wt query col)).map (fun f => r ++ f)
  | _ => none

def unionRows (wt : Nat → Nat → Nat → Nat → Nat → Nat) (lib : Lib) (phrase : Bool) (limit : Nat) (scale : Nat → Nat) (query : List Tok) :
    List ColIn → Option (List (Nat × Nat))
  | [] => some []
  | c :: cs =>
    match colRows wt lib phrase limit scale query c, unionRows wt lib phrase limit scale query cs with
    | some a, some b => some (a ++ b)
    | _, _ => none

/-- scanner.rs:1629-1650: one row per row id, with the greatest score. -/
def groupMax (l : List (Nat × Nat)) : SMap Nat :=
  l.foldl (fun m (r, s) => SMap.insert r (max s ((SMap.get r m).getD 0)) m) []

/-- What `SortExec` does, by decreasing score: equal scores in any order. -/
structure SortLib where
  sort : List (Nat × Nat) → List (Nat × Nat)
  perm : ∀ l, (sort l).Perm l
  desc : ∀ l, (sort l).Pairwise (fun a b => b.2 ≤ a.2)

/-- The scan: the search with the limit of the scan (`usize::MAX`, here `big`, without one), sorted and cut to the limit, then the filter
that is applied afterwards, then `GlobalLimitExec` with offset and limit. -/
def ftsScan (wt : Nat → Nat → Nat → Nat → Nat → Nat) (lib : Lib) (srt : SortLib) (big : Nat) (phrase : Bool) (limit offset : Option Nat)
    (scale : Nat → Nat) (query : List Tok) (post : Nat → Bool) (cols : List ColIn) : Option (List (Nat × Nat)) :=
  (unionRows wt lib phrase (limit.getD big) scale query cols).map (fun u =>
    let sorted := srt.sort (groupMax u)
    let fetched := match limit with
      | some k => sorted.take k
      | none => sorted
    let filtered := fetched.filter (fun x => post x.1)
    if 0 < limit.getD 0 ∨ offset.isSome then
      let l := filtered.drop (offset.getD 0)
      match limit with
      | some k => l.take k
      | none => l
    else filtered)

end Verif.Fts
