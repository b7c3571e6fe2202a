/-!
# Full text search: the search of posting lists for the best documents

Models `rust/lance-index/src/scalar/inverted/wand.rs` (20-351).  Scores are natural numbers (fixed point) and are added exactly; the code
uses `f32`.  What a posting contributes to the score of a document, `idf(len) * (K1 + 1) * scorer(doc, frequency)`, is a function
`contrib` of the length of the posting list, the document and the frequency.  The index of an iterator is replaced by the part of the
list from there on.  A search in a sorted list (`partition_point`) is `dropWhile`.
-/
namespace Verif.Fts

/-- An entry of a posting list: the document, how often it has the token, and where (index.rs:547-552). -/
structure Entry where
  row : Nat
  freq : Nat
  pos : List Int
deriving DecidableEq, Repr

/-- A posting list as it takes part in a query: the token, its position in the query, the entries and the upper bound of what it
contributes (wand.rs:20-28). -/
structure Posting where
  token : Nat
  qpos : Int
  list : List Entry
  ub : Nat
deriving DecidableEq, Repr

/-- wand.rs:20-28 `PostingIterator`: `rest` are the entries from `index` on. -/
structure It where
  p : Posting
  rest : List Entry
deriving DecidableEq, Repr

/-- wand.rs:54-80 `PostingIterator::new`: at the first selected document. -/
def It.new (mask : Nat → Bool) (p : Posting) : It := ⟨p, p.list.dropWhile (fun e => !mask e.row)⟩

/-- wand.rs:88-94 `doc`. -/
def It.doc (it : It) : Option Entry := it.rest.head?

/-- wand.rs:100-112 `next`: the next selected document that is not less than `least`. -/
def It.next (mask : Nat → Bool) (least : Nat) (it : It) : It :=
  { it with rest := (it.rest.dropWhile (fun e => decide (e.row < least))).dropWhile (fun e => !mask e.row) }

/-- wand.rs:41-50 `cmp`: less or equal; an iterator at its end is the greatest. -/
def It.le (a b : It) : Prop := ∀ e, b.doc = some e → ∃ e', a.doc = some e' ∧ e'.row ≤ e.row

/-- The parts of the standard library whose result is not determined: `sort_unstable` of the iterators, and which of several documents
with the least score `BinaryHeap::pop` removes. -/
structure Lib where
  sort : List It → List It
  sort_perm : ∀ l, (sort l).Perm l
  sort_sorted : ∀ l, (sort l).Pairwise It.le
  pop : List (Nat × Nat) → Option ((Nat × Nat) × List (Nat × Nat))
  pop_none : ∀ l, pop l = none → l = []
  pop_some : ∀ l m l', pop l = some (m, l') → l.Perm (m :: l') ∧ ∀ x ∈ l, m.2 ≤ x.2

/-- wand.rs:114-120 `Wand`. -/
structure W where
  threshold : Nat
  cur : Option Nat
  postings : List It
  cands : List (Nat × Nat)

/-- wand.rs:122-132 `Wand::new`: lists without a selected document are left out. -/
def W.new (mask : Nat → Bool) (ps : List Posting) : W :=
  { threshold := 0, cur := none, postings := (ps.map (It.new mask)).filter (fun it => it.doc.isSome), cands := [] }

/-- wand.rs:227-237 `find_pivot_term`. -/
def findPivot (threshold : Nat) : Nat → List It → Option It
  | _, [] => none
  | acc, it :: its => if threshold ≤ acc + it.p.ub then some it else findPivot threshold (acc + it.p.ub) its

/-- wand.rs:255-269 `pick_term`: the shortest list among those whose document is less than `least`.  `bestLen = none` is `usize::MAX`.
An iterator at its end does not occur here (`unwrap`). -/
def pickLoop (least : Nat) : Nat → Nat → Option Nat → List It → Nat
  | _, best, _, [] => best
  | i, best, bestLen, it :: its =>
    match it.doc with
    | none => best
    | some e =>
      if least ≤ e.row then best
      else if bestLen.all (fun b => it.p.list.length < b) then pickLoop least (i + 1) i (some it.p.list.length) its
      else pickLoop least (i + 1) best bestLen its

/-- Iterators at the end are removed from the back (wand.rs:246-252). -/
def popDone (its : List It) : List It := (its.reverse.dropWhile (fun it => it.doc.isNone)).reverse

/-- wand.rs:239-253 `move_term`. -/
def moveTerm (lib : Lib) (mask : Nat → Bool) (least : Nat) (its : List It) : List It :=
  let k := pickLoop least 0 0 none its
  popDone (lib.sort (its.modify k (It.next mask least)))

/-- wand.rs:196-225 `next` after sorting.  The outer `none` is a failed `expect`, or that the steps given did not suffice. -/
def nextLoop (lib : Lib) (mask : Nat → Bool) : Nat → W → Option (Option Nat × W)
  | 0, _ => none
  | n + 1, w =>
    match findPivot w.threshold 0 w.postings with
    | none => some (none, w)
    | some pivot =>
      match pivot.doc with
      | none => none
      | some e =>
        if w.cur.any (fun c => decide (e.row ≤ c)) then
          nextLoop lib mask n { w with postings := moveTerm lib mask (w.cur.getD 0 + 1) w.postings }
        else if ((w.postings.head?.bind It.doc).map Entry.row) = some e.row then
          some (some e.row, { w with cur := some e.row })
        else nextLoop lib mask n { w with postings := moveTerm lib mask e.row w.postings }

/-- The entries that are left. -/
def remaining (its : List It) : Nat := (its.map (fun it => it.rest.length)).sum

/-- wand.rs:196-225 `next`. -/
def next (lib : Lib) (mask : Nat → Bool) (w : W) : Option (Option Nat × W) :=
  nextLoop lib mask (remaining w.postings + 1) { w with postings := lib.sort w.postings }

/-- wand.rs:178-193 `score`. -/
def scoreLoop (contrib : Nat → Nat → Nat → Nat) (doc : Nat) : Nat → List It → Option Nat
  | s, [] => some s
  | s, it :: its =>
    match it.doc with
    | none => none
    | some e => if doc < e.row then some s else scoreLoop contrib doc (s + contrib it.p.list.length doc e.freq) its

/-! ## Positions -/

/-- wand.rs:314-351 `PositionIterator`: the positions from `index` on, each less the position in the query. -/
structure PosIt where
  all : List Int
  q : Int
  rest : List Int
deriving DecidableEq, Repr

def PosIt.position (it : PosIt) : Option Int := it.rest.head?.map (· - it.q)

/-- wand.rs:343-350 `next`. -/
def PosIt.next (least : Int) (it : PosIt) : PosIt := { it with rest := it.all.dropWhile (fun p => decide (p < least + it.q)) }

/-- wand.rs:284-301, the scan of the current positions: the largest and whether all are the same; `none` if one is at its end. -/
def posScan : List PosIt → Option Int → Bool → Option (Option Int × Bool)
  | [], mx, same => some (mx, same)
  | it :: its, mx, same =>
    match it.position with
    | none => none
    | some p =>
      match mx with
      | none => posScan its (some p) same
      | some m => posScan its (some (if m < p then p else m)) (same && decide (p = m))

/-- wand.rs:283-311, the loop of `check_positions`. -/
def posLoop : Nat → List PosIt → Option Bool
  | 0, _ => none
  | n + 1, its =>
    match posScan its none true with
    | none => some false
    | some (mx, same) => if same then some true else posLoop n (its.map (PosIt.next (mx.getD 0)))

def posRemaining (its : List PosIt) : Nat := (its.map (fun it => it.rest.length)).sum

/-- index.rs:587-592 `PostingList::positions`: by a search for the row id. -/
def Posting.positions (p : Posting) (row : Nat) : List Int := ((p.list.find? (fun e => e.row == row)).map Entry.pos).getD []

/-- wand.rs:271-312 `check_positions`. -/
def checkPositions (its : List It) : Option Bool :=
  let pits := its.map (fun it =>
    let l := it.p.positions ((it.doc.map Entry.row).getD 0)
    (⟨l, it.p.qpos, l⟩ : PosIt))
  posLoop (posRemaining pits + 1) pits

/-! ## The search -/

/-- wand.rs:158-164: the candidate is kept if it is among the best so far.  `scale` multiplies with the factor. -/
def offer (lib : Lib) (limit : Nat) (scale : Nat → Nat) (w : W) (doc score : Nat) : Option W :=
  if w.cands.length < limit then some { w with cands := w.cands ++ [(doc, score)] }
  else
    match lib.pop w.cands with
    | none => none
    | some (m, rest) =>
      if m.2 < score then
        let cands := rest ++ [(doc, score)]
        match lib.pop cands with
        | none => none
        | some (m', _) => some { w with cands := cands, threshold := scale m'.2 }
      else some w

/-- wand.rs:142-167, the loop of `search`. -/
def searchLoop (lib : Lib) (mask : Nat → Bool) (contrib : Nat → Nat → Nat → Nat) (phrase : Bool) (tokens limit : Nat)
    (scale : Nat → Nat) : Nat → W → Option W
  | 0, _ => none
  | n + 1, w =>
    match next lib mask w with
    | none => none
    | some (none, w) => some w
    | some (some doc, w) =>
      let consider : Option W :=
        match scoreLoop contrib doc 0 w.postings with
        | none => none
        | some s =>
          match offer lib limit scale w doc s with
          | none => none
          | some w' => searchLoop lib mask contrib phrase tokens limit scale n w'
      if phrase then
        if w.postings.length ≠ tokens then some w
        else if (w.postings.getLast?.bind It.doc).map Entry.row ≠ some doc then
          searchLoop lib mask contrib phrase tokens limit scale n w
        else
          match checkPositions w.postings with
          | none => none
          | some false => searchLoop lib mask contrib phrase tokens limit scale n w
          | some true => consider
      else consider

/-- Insertion by row id, for `sorted_unstable` of the result. -/
def insertRow (x : Nat × Nat) : List (Nat × Nat) → List (Nat × Nat)
  | [] => [x]
  | y :: ys => if x.1 ≤ y.1 then x :: y :: ys else y :: insertRow x ys

def sortRows : List (Nat × Nat) → List (Nat × Nat)
  | [] => []
  | x :: xs => insertRow x (sortRows xs)

/-- wand.rs:134-176 `search`, of a new `Wand`: the documents with their scores; `none` is a panic or that it does not end. -/
def search (lib : Lib) (mask : Nat → Bool) (contrib : Nat → Nat → Nat → Nat) (phrase : Bool) (limit : Nat) (scale : Nat → Nat)
    (ps : List Posting) : Option (List (Nat × Nat)) :=
  if limit = 0 then some []
  else
    let w := W.new mask ps
    (searchLoop lib mask contrib phrase w.postings.length limit scale (remaining w.postings + 1) w).map (fun w => sortRows w.cands)

end Verif.Fts
