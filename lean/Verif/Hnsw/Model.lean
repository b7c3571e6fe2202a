import Verif.Pq.Part
/-!
# Graphs of HNSW indices (hierarchical navigable small worlds)

Building, writing, loading and searching of the graph of one partition.  Nodes are positions of rows in the storage of the partition.  Distances are integers
(floats without NaN and infinity).  `none` is a panic, or a loop that does not end.
-/
namespace Verif.Hnsw
open Verif.Pq (Node)

/-- `rust/lance-index/src/vector/graph/builder.rs` 10-31: a node has a list of ranked neighbors for each of its levels.  `level_neighbors` and `bottom_neighbors`
are the ids of these lists: `update_from_ranked_neighbors` (37-48) is called after each change of the ranked lists (simplification: they are not stored twice). -/
structure GNode where
  ranked : List (List Node)
deriving DecidableEq, Repr

/-- `rust/lance-index/src/vector/hnsw/builder.rs` 46-60: the parameters of the build (`prefetch_distance` has no effect on results). -/
structure Params where
  maxLevel : Nat
  m : Nat
  efConstruction : Nat
deriving DecidableEq, Repr

/-- `builder.rs` 298-307: the graph.  The entry point is node 0 (347), it never changes. -/
structure Graph where
  params : Params
  nodes : List GNode
  levelCount : List Nat
deriving DecidableEq, Repr

/-- `builder.rs` 510-519 and 531-540: the neighbors of a node at a level.  Indexing out of bounds panics. -/
def Graph.neighbors (g : Graph) (level id : Nat) : Option (List Nat) :=
  match g.nodes[id]? with
  | none => none
  | some n => (n.ranked[level]?).map (fun ns => ns.map Node.id)

/-- How binary heaps and sorts order nodes of equal distance: `BinaryHeap::pop` for the largest, for the smallest (`Reverse`), and `into_sorted_vec` or
`sort_unstable_by`. -/
structure Order where
  popMax : List Node → Option (Node × List Node)
  popMin : List Node → Option (Node × List Node)
  sort : List Node → List Node

/-- `rust/lance-index/src/vector/graph.rs` 359-374: one pass over the neighbors, the closest distance and the node of it. -/
def greedyPass (dist : Nat → Int) (closest : Int) (ns : List Nat) : Int × Option Nat :=
  ns.foldl (fun acc n => if dist n < acc.1 then (dist n, some n) else acc) (closest, none)

/-- `graph.rs` 350-384, `greedy_search`.  The first argument is a bound of the rounds; `none` if they do not suffice. -/
def greedy (nbrs : Nat → Option (List Nat)) (dist : Nat → Int) : Nat → Node → Option Node
  | 0, _ => none
  | rounds + 1, cur =>
    match nbrs cur.id with
    | none => none
    | some ns =>
      match greedyPass dist cur.dist ns with
      | (c, none) => some ⟨cur.id, c⟩
      | (c, some next) => greedy nbrs dist rounds ⟨next, c⟩

/-- The state of `beam_search`: the two heaps, and the visited nodes. -/
structure Beam where
  candidates : List Node
  results : List Node
  visited : List Nat

/-- `graph.rs` 275 and 307-310: whether a node may be returned, by the bitset. -/
def kept (bitset : Option (List Nat)) (id : Nat) : Bool :=
  match bitset with
  | none => true
  | some b => b.contains id

/-- `graph.rs` 281-284 and 292-295: `peek` of the results. -/
def Order.furthest (o : Order) (results : List Node) : Option Int := (o.popMax results).map (fun p => p.1.dist)

/-- `graph.rs` 311-317: the heap of results with a node that may be returned.  `peek().unwrap()` panics on an empty heap. -/
def Order.offer (o : Order) (ef : Nat) (results : List Node) (n : Node) : Option (List Node) :=
  if results.length < ef then some (n :: results)
  else if results.length = ef then
    match o.popMax results with
    | none => none
    | some (top, rest) => if n.dist < top.dist then some (n :: rest) else some results
  else some results

/-- `graph.rs` 306: at most the furthest distance, or infinity. -/
def within (furthest : Option Int) (d : Int) : Bool :=
  match furthest with
  | none => true
  | some f => decide (d ≤ f)

/-- `graph.rs` 303-320: one unvisited neighbor; `furthest` is the distance of the furthest result before this round of neighbors, or infinity. -/
def Order.process (o : Order) (dist : Nat → Int) (bitset : Option (List Nat)) (ef : Nat) (furthest : Option Int) (s : Beam) (id : Nat) : Option Beam :=
  let n : Node := ⟨id, dist id⟩
  if within furthest n.dist || decide (s.results.length < ef) then
    if kept bitset id then
      match o.offer ef s.results n with
      | none => none
      | some results => some ⟨n :: s.candidates, results, id :: s.visited⟩
    else some ⟨n :: s.candidates, s.results, id :: s.visited⟩
  else some ⟨s.candidates, s.results, id :: s.visited⟩

/-- `graph.rs` 210-234: all neighbors in order (the look-ahead only prefetches). -/
def Order.processAll (o : Order) (dist : Nat → Int) (bitset : Option (List Nat)) (ef : Nat) (furthest : Option Int) : Beam → List Nat → Option Beam
  | s, [] => some s
  | s, id :: ids =>
    match o.process dist bitset ef furthest s id with
    | none => none
    | some s => o.processAll dist bitset ef furthest s ids

/-- `graph.rs` 279-327: the loop of `beam_search` (287: it ends if the nearest candidate is beyond the furthest of `ef` results). -/
def Order.beamLoop (o : Order) (nbrs : Nat → Option (List Nat)) (dist : Nat → Int) (bitset : Option (List Nat)) (ef : Nat) : Nat → Beam → Option Beam
  | 0, _ => none
  | rounds + 1, s =>
    match o.popMin s.candidates with
    | none => some s
    | some (cur, rest) =>
      if !within (o.furthest s.results) cur.dist && decide (s.results.length = ef) then some s
      else
        match nbrs cur.id with
        | none => none
        | some ns =>
          match o.processAll dist bitset ef (o.furthest s.results) ⟨rest, s.results, s.visited⟩ (ns.filter (fun n => !s.visited.contains n)) with
          | none => none
          | some s => o.beamLoop nbrs dist bitset ef rounds s

/-- `graph.rs` 260-330, `beam_search`: the results in order of distance. -/
def Order.beam (o : Order) (nbrs : Nat → Option (List Nat)) (dist : Nat → Int) (bitset : Option (List Nat)) (ef : Nat) (rounds : Nat) (ep : Node) : Option (List Node) :=
  (o.beamLoop nbrs dist bitset ef rounds ⟨[ep], if kept bitset ep.id then [ep] else [], [ep.id]⟩).map (fun s => o.sort s.results)

/-- `rust/lance-index/src/vector/hnsw.rs` 60-88, `select_neighbors_heuristic`: the loop over the sorted candidates. -/
def selectLoop (between : Nat → Nat → Int) (k : Nat) : List Node → List Node → List Node
  | results, [] => results
  | results, u :: us =>
    if results.length ≥ k then results
    else if results.isEmpty || results.all (fun v => u.dist < between u.id v.id) then selectLoop between k (results ++ [u]) us
    else selectLoop between k results us

/-- `hnsw.rs` 60-88. -/
def Order.select (o : Order) (between : Nat → Nat → Int) (k : Nat) (candidates : List Node) : List Node :=
  if candidates.length ≤ k then candidates else selectLoop between k [] (o.sort candidates)

/-- `builder.rs` 479-482 and 438-441: the number of neighbors a node may have at a level. -/
def Params.mMax (p : Params) (level : Nat) : Nat := if level = 0 then p.m * 2 else p.m

/-- `builder.rs` 478-494, `prune`: the list of neighbors after additions. -/
def Order.prune (o : Order) (between : Nat → Nat → Int) (p : Params) (level : Nat) (l : List Node) : List Node :=
  if l.length ≤ p.mMax level then l else o.select between (p.mMax level) l

/-- Replaces the neighbors of a node at a level. -/
def Graph.setRanked (g : Graph) (id level : Nat) (l : List Node) : Graph :=
  { g with nodes := g.nodes.modify id (fun n => ⟨n.ranked.set level l⟩) }

/-- The ranked neighbors of a node at a level. -/
def Graph.ranked (g : Graph) (id level : Nat) : Option (List Node) := (g.nodes[id]?).bind (fun n => n.ranked[level]?)

/-- `graph/builder.rs` 50-57 and `hnsw/builder.rs` 442-447: whether an edge is below the cutoff of a list of neighbors: the last one of a full list.  `none` is the
`unwrap` of the last of an empty list. -/
def below (mMax : Nat) (l : List Node) (d : Int) : Option Bool :=
  if l.length < mMax then some true else l.getLast?.map (fun n => decide (d < n.dist))

/-- `builder.rs` 436-452: the edge back to the new node. -/
def Order.backLink (o : Order) (between : Nat → Nat → Int) (node level : Nat) (g : Graph) (e : Node) : Option Graph :=
  match g.ranked e.id level with
  | none => none
  | some l =>
    match below (g.params.mMax level) l e.dist with
    | none => none
    | some false => some g
    | some true => some (g.setRanked e.id level (o.prune between g.params level (l ++ [⟨node, e.dist⟩])))

/-- `builder.rs` 433-454: the edges back, level by level, starting with the lowest. -/
def Order.backLinks (o : Order) (between : Nat → Nat → Int) (node : Nat) : Nat → Graph → List (List Node) → Option Graph
  | _, g, [] => some g
  | level, g, es :: ls =>
    match es.foldlM (o.backLink between node level) g with
    | none => none
    | some g => o.backLinks between node (level + 1) g ls

/-- `builder.rs` 415-432: the levels of a new node from the highest to the lowest: the neighbors that the search finds are pruned, and the nearest of them is
where the search of the next level starts.  The first argument is the number of levels.  The node itself is locked for writing: a search that read it would
not end, but it has no edges to it (which is proved). -/
def Order.linkLevels (o : Order) (between : Nat → Nat → Int) (node : Nat) (g : Graph) : Nat → Node → Option (List (List Node))
  | 0, _ => some []
  | level + 1, ep =>
    match o.beam (g.neighbors level) (between node) none g.params.efConstruction (g.nodes.length + 1) ep, g.ranked node level with
    | some found, some own =>
      match found with
      | [] => none
      | next :: _ => (o.linkLevels between node g level next).map (fun ls => ls ++ [o.prune between g.params level (own ++ found)])
    | _, _ => none

/-- `builder.rs` 410-413: greedy searches of the levels above those of the new node. -/
def descend (g : Graph) (dist : Nat → Int) : List Nat → Node → Option Node
  | [], ep => some ep
  | level :: levels, ep =>
    match greedy (g.neighbors level) dist (g.nodes.length + 1) ep with
    | none => none
    | some ep => descend g dist levels ep

/-- The levels from `a` to below `b`, the highest first. -/
def levelsDown (a b : Nat) : List Nat := ((List.range (b - a)).map (· + a)).reverse

/-- `builder.rs` 420: one more node at each of the levels. -/
def addCount (levels : Nat) (c : List Nat) : List Nat := c.mapIdx (fun i n => if i < levels then n + 1 else n)

/-- `builder.rs` 388-455, `insert`.  A node without levels would underflow. -/
def Order.insert (o : Order) (between : Nat → Nat → Int) (g : Graph) (node : Nat) : Option Graph :=
  match g.nodes[node]? with
  | none => none
  | some n =>
    let levels := n.ranked.length
    if levels = 0 then none
    else
      match descend g (between node) (levelsDown levels g.params.maxLevel) ⟨0, between node 0⟩ with
      | none => none
      | some ep =>
        match o.linkLevels between node g levels ep with
        | none => none
        | some ls =>
          o.backLinks between node 0
            { g with nodes := g.nodes.set node ⟨ls⟩, levelCount := addCount levels g.levelCount } ls

/-- `graph/builder.rs` 22-31. -/
def emptyNode (levels : Nat) : GNode := ⟨List.replicate levels []⟩

/-- `builder.rs` 332-370, `with_params`, and 741: node 0 has all levels, the other nodes have the given (random) numbers of levels.  The number of nodes at
level 0 counts node 0. -/
def start (p : Params) (levels : List Nat) : Graph :=
  ⟨p, emptyNode p.maxLevel :: levels.map emptyNode, (List.replicate p.maxLevel 0).mapIdx (fun i n => if i = 0 then n + 1 else n)⟩

/-- `builder.rs` 722-751, `index_vectors`, for a storage that is not empty.  Nodes are inserted in parallel; the model inserts them one after another in order
of their numbers, which is the execution with one thread. -/
def Order.build (o : Order) (p : Params) (between : Nat → Nat → Int) (levels : List Nat) : Option Graph :=
  ((List.range levels.length).map (· + 1)).foldlM (o.insert between) (start p levels)

/-- One row of the file of the index: a node, its neighbors and their distances. -/
structure Row where
  id : Nat
  neighbors : List Nat
  dists : List Int
deriving DecidableEq, Repr

/-- `builder.rs` 764-789: the rows of a level: all nodes that have it. -/
def Graph.levelRows (g : Graph) (level : Nat) : List Row :=
  (g.nodes.mapIdx (fun id n => (id, n))).filterMap (fun p => (p.2.ranked[level]?).map (fun ns => ⟨p.1, ns.map Node.id, ns.map Node.dist⟩))

/-- `builder.rs` 758-803, `to_batch`: the rows of all levels. -/
def Graph.rows (g : Graph) : List Row := (List.range g.params.maxLevel).flatMap g.levelRows

/-- Sums of the first numbers: `scan` of `builder.rs` 278-287. -/
def offsets : Nat → List Nat → List Nat
  | _, [] => []
  | acc, c :: cs => acc :: offsets (acc + c) cs

/-- `builder.rs` 275-294, `metadata`: where each level starts, by the counts of nodes. -/
def Graph.levelOffsets (g : Graph) : List Nat := offsets 0 (g.levelCount ++ [0])

/-- `tuple_windows`. -/
def pairs : List Nat → List (Nat × Nat)
  | a :: b :: l => (a, b) :: pairs (b :: l)
  | _ => []

/-- `builder.rs` 604-617: a row of a level of the file. -/
def loadRow (level : Nat) (nodes : List GNode) (r : Row) : Option (List GNode) :=
  match nodes[r.id]? with
  | none => none
  | some n => if level < n.ranked.length then some (nodes.set r.id ⟨n.ranked.set level (List.zipWith Node.mk r.neighbors r.dists)⟩) else none

/-- `builder.rs` 599-618: the levels, the lowest first. -/
def loadLevels : Nat → List GNode → List (List Row) → Option (List GNode)
  | _, nodes, [] => some nodes
  | level, nodes, rows :: ls =>
    match rows.foldlM (loadRow level) nodes with
    | none => none
    | some nodes => loadLevels (level + 1) nodes ls

/-- `builder.rs` 560-637, `load`: the rows are cut by the offsets; `slice` panics if they are beyond the rows, `levels[0]` if there is no level. -/
def load (p : Params) (levelOffsets : List Nat) (rows : List Row) : Option Graph :=
  if (pairs levelOffsets).all (fun w => decide (w.1 ≤ w.2 ∧ w.2 ≤ rows.length)) then
    let levels := (pairs levelOffsets).map (fun w => (rows.drop w.1).take (w.2 - w.1))
    match levels with
    | [] => none
    | bottom :: _ =>
      (loadLevels 0 (List.replicate bottom.length (emptyNode levels.length)) levels).map (fun nodes => ⟨p, nodes, levels.map List.length⟩)
  else none

/-- `builder.rs` 163-199, `search_inner`. -/
def Order.searchInner (o : Order) (g : Graph) (dist : Nat → Int) (bitset : Option (List Nat)) (k ef : Nat) : Option (List Node) :=
  match descend g dist (levelsDown 0 g.params.maxLevel) ⟨0, dist 0⟩ with
  | none => none
  | some ep => (o.beam (g.neighbors 0) dist bitset ef (g.nodes.length + 1) ep).map (fun r => r.take k)

/-- `builder.rs` 255-270: the loop of `flat_search`. -/
def Order.flatLoop (o : Order) (dist : Nat → Int) (k : Nat) : List Node → List Nat → Option (List Node)
  | heap, [] => some heap
  | heap, id :: ids =>
    if heap.length < k then o.flatLoop dist k (⟨id, dist id⟩ :: heap) ids
    else
      match o.popMax heap with
      | none => none
      | some (top, rest) => if dist id < top.dist then o.flatLoop dist k (⟨id, dist id⟩ :: rest) ids else o.flatLoop dist k heap ids

/-- `builder.rs` 237-272, `flat_search`. -/
def Order.flatSearch (o : Order) (rowCount : Nat) (dist : Nat → Int) (k : Nat) (bitset : List Nat) : Option (List Node) :=
  (o.flatLoop dist k [] ((List.range rowCount).filter (fun i => bitset.contains i))).map o.sort

/-- `unique_by` of the row id: the first of each. -/
def uniqueBy : List Nat → List (Nat × Int) → List (Nat × Int)
  | _, [] => []
  | seen, r :: rs => if seen.contains r.1 then uniqueBy seen rs else r :: uniqueBy (r.1 :: seen) rs

/-- `RowIdMask::selected_indices` for the filter: the positions of selected rows. -/
def selectedPositions (sel : Nat → Bool) (rowIds : List Nat) : List Nat := (List.range rowIds.length).filter (fun i => (rowIds[i]?).any sel)

/-- What a search gives: an error, or rows with distances. -/
inductive Outcome
  | error
  | rows (l : List (Nat × Int))
deriving DecidableEq, Repr

/-- The rows of nodes: `storage.row_id`, which panics out of bounds. -/
def rowsOf (rowIds : List Nat) : List Node → Option (List (Nat × Int))
  | [] => some []
  | n :: ns =>
    match rowIds[n.id]?, rowsOf rowIds ns with
    | some r, some rs => some ((r, n.dist) :: rs)
    | _, _ => none

/-- `builder.rs` 695-705: which search is used. -/
def Order.found (o : Order) (g : Graph) (rowIds : List Nat) (dist : Nat → Int) (bitset : Option (List Nat)) (k ef : Nat) : Option (List Node) :=
  match bitset with
  | none => if rowIds.length < g.nodes.length * 10 / 100 then none else o.searchInner g dist none k ef
  | some b => if b.length < g.nodes.length * 10 / 100 then o.flatSearch rowIds.length dist k b else o.searchInner g dist (some b) k ef

/-- `builder.rs` 659-719, `search`: `k` and `ef` are those of the query (with the refine factor), `dist` gives the distance of the query to the vector at a
position of the storage.  The bounds of the query (`distance_range`) are not used. -/
def Order.search (o : Order) (g : Graph) (rowIds : List Nat) (dist : Nat → Int) (sel : Option (Nat → Bool)) (k ef : Nat) : Option Outcome :=
  if ef < k then some .error
  else if g.nodes.isEmpty then some (.rows [])
  else
    match o.found g rowIds dist (sel.map (fun f => selectedPositions f rowIds)) k ef with
    | none => none
    | some ns => (rowsOf rowIds ns).map (fun l => .rows (uniqueBy [] l))

/-- The parts of a query (`rust/lance-index/src/vector.rs`) that matter in a partition: `k`, the refine factor, `ef`, and the bounds of `distance_range`. -/
structure Query where
  k : Nat
  refine : Option Nat
  ef : Option Nat
  lo : Option Int
  hi : Option Int

/-- `builder.rs` 549 and `rust/lance/src/index/vector/ivf/v2.rs` 429-430. -/
def Query.count (q : Query) : Nat := q.k * q.refine.getD 1

/-- `builder.rs` 547-554, `HnswQueryParams`: only `ef` is taken of the query. -/
def Query.width (q : Query) : Nat := q.ef.getD (q.count + q.count / 2)

/-- `ivf/v2.rs` 416-436, `search_in_partition` of an HNSW partition. -/
def Order.query (o : Order) (g : Graph) (rowIds : List Nat) (dist : Nat → Int) (sel : Option (Nat → Bool)) (q : Query) : Option Outcome :=
  o.search g rowIds dist sel q.count q.width

end Verif.Hnsw
