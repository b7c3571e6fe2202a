import Verif.Hnsw.LemmasLoad
import Verif.Pq.PropsSearch
/-!
# C113: an HNSW graph that is written to the index file and loaded again is the same graph
-/
namespace Verif.Hnsw
open Verif.Pq (Node sortNodes sortNodes_sorts)

/-- C113: loading what was written gives the neighbors of every node at every level that a search may ask for; nodes that do not have a level have no
neighbors there. -/
def C113_statement : Prop :=
  ∀ (o : Order) (p : Params) (between : Nat → Nat → Int) (levels : List Nat), o.Ok → 0 < p.m → 0 < p.maxLevel → (∀ c ∈ levels, 0 < c ∧ c ≤ p.maxLevel) →
    ∃ g g', o.build p between levels = some g ∧ load g.params g.levelOffsets g.rows = some g' ∧ g'.params = g.params ∧ g'.nodes.length = g.nodes.length ∧
      ∀ i < g.nodes.length, ∀ l < p.maxLevel, g'.neighbors l i = some ((g.neighbors l i).getD [])

/-- What was built and what was loaded of it. -/
theorem build_load {o : Order} (ho : o.Ok) {p : Params} (between : Nat → Nat → Int) {levels : List Nat} (hm : 0 < p.m) (hl : 0 < p.maxLevel)
    (h : ∀ c ∈ levels, 0 < c ∧ c ≤ p.maxLevel) :
    ∃ g g', o.build p between levels = some g ∧ load g.params g.levelOffsets g.rows = some g' ∧ Wf g ∧ Wf g' ∧ g'.params = p ∧ g.nodes.length = levels.length + 1 ∧
      g'.nodes.length = levels.length + 1 ∧ (∀ i < levels.length + 1, g'.neighbors 0 i = g.neighbors 0 i) := by
  obtain ⟨g, g1, g2, g3, g4, g5⟩ := build_ok ho between hm hl h
  have hnl : g.nodes.length = levels.length + 1 := by
    have := congrArg List.length g4
    simpa [shape] using this
  have hcount : ∀ l : Nat, (g.levelCount)[l]? = if l < p.maxLevel then some ((if l = 0 then 1 else 0) + levels.countP (fun n => decide (l < n))) else none := by
    intro l
    rw [g5, counts, start_count]
    split <;> rfl
  have hclen : g.levelCount.length = p.maxLevel := by
    have h1 := hcount (p.maxLevel - 1)
    rw [if_pos (by omega)] at h1
    have h2 := hcount p.maxLevel
    rw [if_neg (by omega)] at h2
    have h3 := (List.getElem?_eq_some_iff.1 h1).1
    have h4 := List.getElem?_eq_none_iff.1 h2
    omega
  have hrl : ∀ l : Nat, (g.levelRows l).length = (if l < p.maxLevel then 1 else 0) + levels.countP (fun n => decide (l < n)) := by
    intro l
    rw [levelRows_length, g4, List.countP_cons]
    by_cases hlt : l < p.maxLevel <;> simp [hlt] <;> omega
  have hsum : g.levelCount.sum ≤ g.rows.length := by
    unfold Graph.rows
    rw [List.length_flatMap, g3]
    apply sum_le
    · simp [hclen]
    · intro i x y hx hy
      rw [hcount] at hx
      rw [List.getElem?_map] at hy
      split at hx
      · rename_i hi
        rw [List.getElem?_range hi] at hy
        simp only [Option.map_some, Option.some.injEq] at hx hy
        rw [hrl, if_pos hi] at hy
        split at hx <;> omega
      · simp at hx
  obtain ⟨c0, cs, hcs⟩ : ∃ c0 cs, g.levelCount = c0 :: cs := by
    cases hc : g.levelCount with
    | nil => rw [hc] at hclen; simp at hclen; omega
    | cons c0 cs => exact ⟨c0, cs, rfl⟩
  have hall1 : levels.countP (fun n => decide (0 < n)) = levels.length := by
    rw [List.countP_eq_length]
    intro c hc
    exact decide_eq_true (h c hc).1
  have hc0 : c0 = levels.length + 1 := by
    have := hcount 0
    rw [hcs, if_pos hl, if_pos rfl, hall1] at this
    simp only [List.getElem?_cons_zero, Option.some.injEq] at this
    omega
  obtain ⟨o1, o2, o3⟩ := pairs_offsets g.levelCount 0
  have hp : g.levelOffsets = offsets 0 (g.levelCount ++ [0]) := rfl
  obtain ⟨w, ws, hws⟩ : ∃ w ws, pairs g.levelOffsets = w :: ws := by
    rw [hp]
    cases hc : pairs (offsets 0 (g.levelCount ++ [0])) with
    | nil => rw [hc, hclen] at o1; simp at o1; omega
    | cons w ws => exact ⟨w, ws, rfl⟩
  have hw : w = (0, c0) := by
    have := o3 c0 cs hcs
    rw [← hp, hws] at this
    simpa using this
  have hbottom : g.levelRows 0 = (g.rows.drop w.1).take (w.2 - w.1) := by
    rw [hw]
    simp only [List.drop_zero, Nat.sub_zero]
    unfold Graph.rows
    rw [g3, show p.maxLevel = (p.maxLevel - 1) + 1 by omega, List.range_succ_eq_map, List.flatMap_cons, List.take_append_of_le_length]
    · rw [List.take_of_length_le]
      rw [hrl, if_pos hl, hall1]
      omega
    · rw [hrl, if_pos hl, hall1]
      omega
  have hrows : ∀ r ∈ g.rows, ∃ i l ns, g.ranked i l = some ns ∧ l < p.maxLevel ∧ r = ⟨i, ns.map Node.id, ns.map Node.dist⟩ := by
    intro r hr
    obtain ⟨l, hl1, hl2⟩ := List.mem_flatMap.1 hr
    obtain ⟨i, ns, h1, h2⟩ := mem_levelRows.1 hl2
    exact ⟨i, l, ns, h1, by rw [← g3]; exact List.mem_range.1 hl1, h2⟩
  have hlv : (pairs g.levelOffsets).map (fun w => (g.rows.drop w.1).take (w.2 - w.1)) = g.levelRows 0 :: ws.map (fun w => (g.rows.drop w.1).take (w.2 - w.1)) := by
    rw [hws, List.map_cons, ← hbottom]
  have hlvl : (g.levelRows 0).length = levels.length + 1 := by
    rw [hrl, if_pos hl, hall1]
    omega
  have hwl : ws.length + 1 = p.maxLevel := by
    have := congrArg List.length hws
    rw [hp, o1, hclen] at this
    simpa using this.symm
  let P : List Node → Prop := fun ns => (ns.map Node.id).Nodup ∧ ∀ x ∈ ns, x.id < levels.length + 1
  have hstart : shape (asGraph p (List.replicate (levels.length + 1) (emptyNode p.maxLevel))) = List.replicate (levels.length + 1) p.maxLevel := by
    simp [shape, asGraph, emptyNode]
  have hempty : ∀ i l ns, (asGraph p (List.replicate (levels.length + 1) (emptyNode p.maxLevel))).ranked i l = some ns → ns = [] := by
    intro i l ns hr
    unfold Graph.ranked asGraph at hr
    simp only [List.getElem?_replicate] at hr
    split at hr
    · simp only [Option.bind_some, emptyNode, List.getElem?_replicate] at hr
      split at hr
      · exact (Option.some.inj hr).symm
      · simp at hr
    · simp at hr
  obtain ⟨nodes, n1, n2, n3, _, n5⟩ := loadLevels_ok p P (N := levels.length + 1) (M := p.maxLevel)
    (g.levelRows 0 :: ws.map (fun w => (g.rows.drop w.1).take (w.2 - w.1))) 0 hstart
    (by simp only [List.length_cons, List.length_map]; omega) (by
      intro rows hrs r hr
      have hmem : r ∈ g.rows := by
        rw [← hlv] at hrs
        obtain ⟨w', _, rfl⟩ := List.mem_map.1 hrs
        exact List.mem_of_mem_drop (List.mem_of_mem_take hr)
      obtain ⟨i, l, ns, q1, q2, rfl⟩ := hrows r hmem
      obtain ⟨u1, u2⟩ := g2.links i l ns q1
      refine ⟨by have := ranked_lt q1; rw [hnl] at this; exact this, ?_⟩
      rw [zip_row]
      refine ⟨u1, fun x hx => ?_⟩
      obtain ⟨ns', q3⟩ := u2 x hx
      have := ranked_lt q3
      rw [hnl] at this
      exact this) (by
      intro i l ns hr
      rw [hempty i l ns hr]
      exact ⟨by simp, by simp⟩)
  let g' : Graph := ⟨p, nodes, (g.levelRows 0 :: ws.map (fun w => (g.rows.drop w.1).take (w.2 - w.1))).map List.length⟩
  have hnl' : nodes.length = levels.length + 1 := by
    have := congrArg List.length n2
    simpa [shape, asGraph] using this
  have hrk : ∀ i l, g'.ranked i l = (asGraph p nodes).ranked i l := fun _ _ => rfl
  have hsome : ∀ i l, i < levels.length + 1 → l < p.maxLevel → ∃ ns, g'.ranked i l = some ns := by
    intro i l hi hlt
    rw [hrk, ranked_iff, n2]
    exact ⟨_, by rw [List.getElem?_replicate, if_pos hi], hlt⟩
  have hlev : ∀ i l ns, g'.ranked i l = some ns → l < p.maxLevel := by
    intro i l ns hr
    obtain ⟨n, q1, q2⟩ := (ranked_iff (asGraph p nodes) i l).1 ⟨ns, hr⟩
    rw [n2, List.getElem?_replicate] at q1
    split at q1
    · have := Option.some.inj q1
      omega
    · simp at q1
  have hwf : Wf g' := by
    refine ⟨hl, fun l hlt => hsome 0 l (by omega) hlt, ?_⟩
    intro i l ns hr
    obtain ⟨q1, q2⟩ := n3 i l ns hr
    exact ⟨q1, fun x hx => hsome _ _ (q2 x hx) (hlev i l ns hr)⟩
  have hbot : ∀ i < levels.length + 1, g'.ranked i 0 = g.ranked i 0 := by
    intro i hi
    obtain ⟨ns, hr⟩ : ∃ ns, g.ranked i 0 = some ns := by
      rw [ranked_iff, g4]
      cases i with
      | zero => exact ⟨_, rfl, hl⟩
      | succ j =>
        rw [List.getElem?_cons_succ]
        have hj : j < levels.length := by omega
        exact ⟨_, List.getElem?_eq_getElem hj, (h _ (List.getElem_mem hj)).1⟩
    have := n5 _ rfl (levelRows_pairwise g 0) _ (mem_levelRows.2 ⟨i, ns, hr, rfl⟩)
    rw [zip_row] at this
    rw [hr]
    exact this
  refine ⟨g, g', g1, ?_, g2, hwf, rfl, hnl, hnl', ?_⟩
  · unfold load
    rw [if_pos, hlv]
    · simp only [List.length_cons, List.length_map, hlvl, hwl]
      rw [n1, g3]
      rfl
    · rw [List.all_eq_true]
      intro x hx
      have := o2 x hx
      exact decide_eq_true ⟨this.1, by omega⟩
  · intro i hi
    rw [neighbors_eq, neighbors_eq, hbot i hi]

/-- C113 in part: the graph can be loaded, it has as many nodes, and at the lowest level all nodes have the same neighbors. -/
theorem C113_bottom_partial (o : Order) (p : Params) (between : Nat → Nat → Int) (levels : List Nat) (ho : o.Ok) (hm : 0 < p.m) (hl : 0 < p.maxLevel)
    (h : ∀ c ∈ levels, 0 < c ∧ c ≤ p.maxLevel) :
    ∃ g g', o.build p between levels = some g ∧ load g.params g.levelOffsets g.rows = some g' ∧ g'.params = g.params ∧ g'.nodes.length = g.nodes.length ∧
      g.nodes.length = levels.length + 1 ∧ (∀ i < g.nodes.length, (g.neighbors 0 i).isSome ∧ g'.neighbors 0 i = g.neighbors 0 i) := by
  obtain ⟨g, g', g1, g2, g3, g4, g5, g6, g7, g8⟩ := build_load ho between hm hl h
  obtain ⟨g0, q1, q2, q3, q4, _⟩ := build_ok ho between hm hl h
  rw [g1] at q1
  obtain rfl := Option.some.inj q1
  refine ⟨g, g', g1, g2, by rw [g5, q3], by rw [g6, g7], g6, ?_⟩
  intro i hi
  rw [g6] at hi
  refine ⟨?_, g8 i hi⟩
  obtain ⟨ns, hr⟩ : ∃ ns, g.ranked i 0 = some ns := by
    rw [ranked_iff, q4]
    cases i with
    | zero => exact ⟨_, rfl, hl⟩
    | succ j =>
      rw [List.getElem?_cons_succ]
      have hj : j < levels.length := by omega
      exact ⟨_, List.getElem?_eq_getElem hj, (h _ (List.getElem_mem hj)).1⟩
  rw [neighbors_eq, hr]
  rfl

/-- An order of heaps and sorts: insertion sort. -/
def plain : Order where
  popMax l := match (sortNodes l).reverse with
    | [] => none
    | n :: r => some (n, r)
  popMin l := match sortNodes l with
    | [] => none
    | n :: r => some (n, r)
  sort := sortNodes

theorem plain_ok : plain.Ok := by
  refine ⟨rfl, ?_, rfl, ?_, fun l => (sortNodes_sorts l).1, fun l => (sortNodes_sorts l).2⟩
  · intro l hl
    obtain ⟨h1, h2⟩ := sortNodes_sorts l
    have h4 := (List.reverse_perm (sortNodes l)).trans h1
    unfold plain
    simp only
    cases hr : (sortNodes l).reverse with
    | nil =>
      rw [hr] at h4
      exact absurd h4.symm.eq_nil hl
    | cons n r =>
      rw [hr] at h4
      refine ⟨n, r, rfl, h4, ?_⟩
      have h5 : ((sortNodes l).reverse).Pairwise (fun x y => y.dist ≤ x.dist) := List.pairwise_reverse.2 h2
      rw [hr] at h5
      exact (List.pairwise_cons.1 h5).1
  · intro l hl
    obtain ⟨h1, h2⟩ := sortNodes_sorts l
    unfold plain
    simp only
    cases hr : sortNodes l with
    | nil =>
      rw [hr] at h1
      exact absurd h1.symm.eq_nil hl
    | cons n r =>
      rw [hr] at h1 h2
      exact ⟨n, r, rfl, h1, (List.pairwise_cons.1 h2).1⟩

/-- Points on a line, and their squared distances. -/
def onLine (pts : List Int) (a b : Nat) : Int := (pts.getD a 0 - pts.getD b 0) * (pts.getD a 0 - pts.getD b 0)

/-- The counts of nodes of the levels above the lowest do not include node 0, whose rows are written: the last node of level 1 is read as of level 2, or not at
all.  Here node 2 has the neighbors 0 and 1 at level 1, and none after loading. -/
theorem C113_violated : ¬ C113_statement := by
  intro h
  obtain ⟨g, g', g1, g2, _, g3, g4⟩ := h plain ⟨3, 2, 10⟩ (onLine [0, 1, 2]) [2, 2] plain_ok (by decide) (by decide) (by decide)
  have e : (plain.build ⟨3, 2, 10⟩ (onLine [0, 1, 2]) [2, 2]).bind (fun g => (load g.params g.levelOffsets g.rows).map (fun g' => (g.nodes.length, g.neighbors 1 2, g'.neighbors 1 2))) =
      some (3, some [1, 0], some []) := by decide +kernel
  rw [g1] at e
  simp only [Option.bind_some] at e
  rw [g2] at e
  simp only [Option.map_some, Option.some.injEq, Prod.mk.injEq] at e
  obtain ⟨e1, e2, e3⟩ := e
  have := g4 2 (by omega) 1 (by decide)
  rw [e2, e3] at this
  simp at this

/-- With a node at level 2, level 2 of the loaded graph has what was level 1 of another node. -/
theorem C113_shifted_violated : (plain.build ⟨3, 2, 10⟩ (onLine [0, 1, 2]) [3, 2]).bind (fun g => (load g.params g.levelOffsets g.rows).map (fun g' =>
    (g.neighbors 1 2, g.neighbors 2 2, g'.neighbors 1 2, g'.neighbors 2 2))) = some (some [1, 0], none, some [], some [1, 0]) := by decide +kernel

/-- The hypotheses of `C113_bottom_partial` are met. -/
theorem C113_nonvacuous : plain.Ok ∧ (plain.build ⟨3, 2, 10⟩ (onLine [0, 1, 2]) [2, 2]).bind (fun g => (load g.params g.levelOffsets g.rows).map (fun g' =>
    (g.neighbors 0 2, g'.neighbors 0 2))) = some (some [1, 0], some [1, 0]) := ⟨plain_ok, by decide +kernel⟩

end Verif.Hnsw
