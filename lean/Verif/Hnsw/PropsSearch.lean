import Verif.Hnsw.PropsLoad
/-!
# C111: what a search of an HNSW partition gives is right

The graph that was built, and the graph that was loaded of the index file, are searched without failing; the rows are different, selected by the filter, in order
of their distances, which are those of their vectors, and not more than was asked for.
-/
namespace Verif.Hnsw
open Verif.Pq (Node Nearest nearest_take sortNodes sortNodes_sorts)

/-- Rows that may be given for a query. -/
def Answers (rowIds : List Nat) (dist : Nat → Int) (sel : Option (Nat → Bool)) (k : Nat) (l : List (Nat × Int)) : Prop :=
  l.length ≤ k ∧ (l.map Prod.fst).Nodup ∧ l.Pairwise (fun x y => x.2 ≤ y.2) ∧
    ∀ x ∈ l, sel.all (fun f => f x.1) = true ∧ ∃ i : Nat, rowIds[i]? = some x.1 ∧ dist i = x.2

theorem kept_all {sel : Option (Nat → Bool)} {rowIds : List Nat} {i : Nat} (hi : i < rowIds.length) :
    kept (sel.map (fun f => selectedPositions f rowIds)) i = sel.all (fun f => f (rowIds.getD i 0)) := by
  rw [kept_selected hi]
  cases sel <;> rfl

theorem nodes_ne {g : Graph} (hg : Wf g) : g.nodes.isEmpty = false := by
  obtain ⟨ns, h⟩ := hg.entry 0 hg.levels
  have := ranked_lt h
  cases hn : g.nodes with
  | nil => rw [hn] at this; simp at this
  | cons => rfl

/-- The search of any graph whose links are right. -/
theorem search_answers {o : Order} (ho : o.Ok) {g : Graph} (hg : Wf g) {rowIds : List Nat} (hn : g.nodes.length = rowIds.length) (dist : Nat → Int)
    (sel : Option (Nat → Bool)) {k ef : Nat} (hk : 0 < k) (hef : k ≤ ef) :
    ∃ l, o.search g rowIds dist sel k ef = some (.rows l) ∧ Answers rowIds dist sel k l := by
  obtain ⟨r, r1, r2, r3, r4, r5⟩ := found_ok ho hg hn dist sel hk hef
  have hrows := rowsOf_eq (rowIds := rowIds) (ns := r) (fun x hx => (r5 x hx).1)
  refine ⟨uniqueBy [] (r.map (fun x => (rowIds.getD x.id 0, x.dist))), ?_, ?_⟩
  · unfold Order.search
    rw [if_neg (by omega), nodes_ne hg, r1]
    simp only [Bool.false_eq_true, if_false]
    rw [hrows]
    rfl
  · obtain ⟨u1, u2, _⟩ := uniqueBy_spec (r.map (fun x => (rowIds.getD x.id 0, x.dist))) []
    refine ⟨?_, u2, ?_, ?_⟩
    · have := u1.length_le
      rw [List.length_map] at this
      omega
    · refine List.Pairwise.sublist u1 ?_
      rw [List.pairwise_map]
      exact r2
    · intro x hx
      obtain ⟨n, hn1, rfl⟩ := List.mem_map.1 (u1.subset hx)
      obtain ⟨h1, h2, h3⟩ := r5 n hn1
      refine ⟨by rw [← kept_all h1]; exact h3, n.id, ?_, h2.symm⟩
      simp [List.getD_eq_getElem?_getD, List.getElem?_eq_getElem h1]

/-- C111: for every order in which the heaps and sorts may give equal distances, all parameters, distances, random levels of nodes, filters and queries. -/
theorem C111_search (o : Order) (p : Params) (between : Nat → Nat → Int) (levels : List Nat) (rowIds : List Nat) (ho : o.Ok) (hm : 0 < p.m) (hl : 0 < p.maxLevel)
    (h : ∀ c ∈ levels, 0 < c ∧ c ≤ p.maxLevel) (hr : rowIds.length = levels.length + 1) :
    ∃ g g', o.build p between levels = some g ∧ load g.params g.levelOffsets g.rows = some g' ∧
      ∀ (dist : Nat → Int) (sel : Option (Nat → Bool)) (k ef : Nat), 0 < k → k ≤ ef →
        (∃ l, o.search g rowIds dist sel k ef = some (.rows l) ∧ Answers rowIds dist sel k l) ∧
        (∃ l, o.search g' rowIds dist sel k ef = some (.rows l) ∧ Answers rowIds dist sel k l) := by
  obtain ⟨g, g', g1, g2, g3, g4, _, g5, g6, _⟩ := build_load ho between hm hl h
  exact ⟨g, g', g1, g2, fun dist sel k ef hk hef => ⟨search_answers ho g3 (by omega) dist sel hk hef, search_answers ho g4 (by omega) dist sel hk hef⟩⟩

/-- A query with any refine factor, without `ef` or with one that is not less than the number of rows that are asked for, does not fail; a query with a lower `ef`
is an error. -/
theorem C111_query (o : Order) (p : Params) (between : Nat → Nat → Int) (levels : List Nat) (rowIds : List Nat) (ho : o.Ok) (hm : 0 < p.m) (hl : 0 < p.maxLevel)
    (h : ∀ c ∈ levels, 0 < c ∧ c ≤ p.maxLevel) (hr : rowIds.length = levels.length + 1) :
    ∃ g g', o.build p between levels = some g ∧ load g.params g.levelOffsets g.rows = some g' ∧
      ∀ (dist : Nat → Int) (sel : Option (Nat → Bool)) (q : Query), 0 < q.k → 0 < q.refine.getD 1 →
        (q.ef.all (fun e => decide (q.k * q.refine.getD 1 ≤ e)) = true →
          ∃ l, o.query g' rowIds dist sel q = some (.rows l) ∧ Answers rowIds dist sel (q.k * q.refine.getD 1) l) ∧
        (q.ef.any (fun e => decide (e < q.k * q.refine.getD 1)) = true → o.query g' rowIds dist sel q = some .error) := by
  obtain ⟨g, g', g1, g2, g3⟩ := C111_search o p between levels rowIds ho hm hl h hr
  refine ⟨g, g', g1, g2, fun dist sel q hk hf => ⟨fun he => ?_, fun he => ?_⟩⟩
  · refine (g3 dist sel _ _ (Nat.mul_pos hk hf) ?_).2
    unfold Query.width Query.count
    cases hq : q.ef with
    | none => exact Nat.le_add_right _ _
    | some e => rw [hq] at he; simpa using he
  · unfold Order.query Order.search Query.width Query.count
    cases hq : q.ef with
    | none => rw [hq] at he; simp at he
    | some e =>
      rw [hq] at he
      rw [if_pos (by simpa using he)]

/-- The rows that a filter selects, with their distances. -/
def selected (rowIds : List Nat) (dist : Nat → Int) (sel : Option (Nat → Bool)) : List (Int × Nat) :=
  ((List.range rowIds.length).filter (fun i => sel.all (fun f => f (rowIds.getD i 0)))).map (fun i => (dist i, rowIds.getD i 0))

theorem getD_inj {rowIds : List Nat} (h : rowIds.Nodup) {i j : Nat} (hi : i < rowIds.length) (hj : j < rowIds.length) (he : rowIds.getD i 0 = rowIds.getD j 0) : i = j := by
  simp only [List.getD_eq_getElem?_getD, List.getElem?_eq_getElem hi, List.getElem?_eq_getElem hj, Option.getD_some] at he
  rcases Nat.lt_trichotomy i j with hlt | heq | hlt
  · exact absurd he (List.pairwise_iff_getElem.1 h i j hi hj hlt)
  · exact heq
  · exact absurd he.symm (List.pairwise_iff_getElem.1 h j i hj hi hlt)

/-- If the row ids are different, none is left out of what was found. -/
theorem search_found {o : Order} {g : Graph} (hg : Wf g) {rowIds : List Nat} (hd : rowIds.Nodup) {dist : Nat → Int} {sel : Option (Nat → Bool)} {k ef : Nat} (hef : k ≤ ef)
    {r : List Node} (hr : o.found g rowIds dist (sel.map (fun f => selectedPositions f rowIds)) k ef = some r) (hn : (r.map Node.id).Nodup)
    (h : ∀ x ∈ r, x.id < rowIds.length ∧ x.dist = dist x.id) :
    ∃ l, o.search g rowIds dist sel k ef = some (.rows l) ∧ l.map (fun x => (x.2, x.1)) = (r.map Node.id).map (fun i => (dist i, rowIds.getD i 0)) := by
  refine ⟨r.map (fun x => (rowIds.getD x.id 0, x.dist)), ?_, ?_⟩
  · unfold Order.search
    rw [if_neg (by omega), nodes_ne hg, hr]
    simp only [Bool.false_eq_true, if_false]
    rw [rowsOf_eq (fun x hx => (h x hx).1)]
    simp only [Option.map_some]
    rw [uniqueBy_id _ _ ?_ (by simp)]
    rw [List.map_map]
    unfold List.Nodup at hn ⊢
    rw [List.pairwise_map] at hn ⊢
    refine List.Pairwise.imp_of_mem ?_ hn
    intro a b ha hb hab he
    exact hab (getD_inj hd (h a ha).1 (h b hb).1 he)
  · rw [List.map_map, List.map_map]
    apply List.map_congr_left
    intro x hx
    simp only [Function.comp]
    rw [(h x hx).2]

/-- The flat search gives the nearest positions. -/
theorem flatSearch_ok {o : Order} (ho : o.Ok) (n : Nat) (dist : Nat → Int) {k : Nat} (hk : 0 < k) (b : List Nat) :
    ∃ r rest, o.flatSearch n dist k b = some r ∧ r.Pairwise (fun x y => x.dist ≤ y.dist) ∧
      (r ++ rest).Perm (((List.range n).filter (fun i => b.contains i)).map (fun i => (⟨i, dist i⟩ : Node))) ∧
      r.length ≤ k ∧ (r.length < k → rest = []) ∧ ∀ x ∈ r, ∀ y ∈ rest, x.dist ≤ y.dist := by
  obtain ⟨heap, dropped, h1, h2, h3, h4, h5⟩ := flatLoop_ok ho dist hk ((List.range n).filter (fun i => b.contains i)) [] [] (by simp) (fun _ => rfl) (by simp)
  have hs : _ ∧ _ := ⟨ho.sort_perm heap, ho.sort_sorted heap⟩
  refine ⟨o.sort heap, dropped, by unfold Order.flatSearch; rw [h1]; rfl, hs.2, ?_, by rw [hs.1.length_eq]; exact h3, by rw [hs.1.length_eq]; exact h4, ?_⟩
  · exact (hs.1.append_right dropped).trans (by simpa using h2)
  · intro x hx
    exact h5 x (hs.1.mem_iff.1 hx)

theorem selected_eq {rowIds : List Nat} {dist : Nat → Int} {f : Nat → Bool} :
    (List.range rowIds.length).filter (fun i => (selectedPositions f rowIds).contains i) = (List.range rowIds.length).filter (fun i => f (rowIds.getD i 0)) := by
  apply List.filter_congr
  intro i hi
  have := kept_all (sel := some f) (List.mem_range.1 hi)
  exact this

theorem selectedPositions_length {rowIds : List Nat} {f : Nat → Bool} (dist : Nat → Int) : (selectedPositions f rowIds).length = (selected rowIds dist (some f)).length := by
  unfold selected selectedPositions
  rw [List.length_map]
  congr 1
  apply List.filter_congr
  intro i hi
  have hi := List.mem_range.1 hi
  simp [List.getD_eq_getElem?_getD, List.getElem?_eq_getElem hi]

/-- If the filter selects less than a tenth of the rows, the search gives exactly the nearest of them. -/
theorem search_few {o : Order} (ho : o.Ok) {g : Graph} (hg : Wf g) {rowIds : List Nat} (hd : rowIds.Nodup) (dist : Nat → Int) {f : Nat → Bool} {k ef : Nat} (hk : 0 < k) (hef : k ≤ ef)
    (hfew : (selected rowIds dist (some f)).length < g.nodes.length * 10 / 100) :
    ∃ l, o.search g rowIds dist (some f) k ef = some (.rows l) ∧ Nearest (selected rowIds dist (some f)) k (l.map (fun x => (x.2, x.1))) := by
  obtain ⟨r, rest, r1, r2, r3, r4, r5, r6⟩ := flatSearch_ok ho rowIds.length dist hk (selectedPositions f rowIds)
  rw [selected_eq (dist := dist)] at r3
  have hmem : ∀ x ∈ r ++ rest, x.id < rowIds.length ∧ x.dist = dist x.id := by
    intro x hx
    obtain ⟨i, hi, rfl⟩ := List.mem_map.1 (r3.mem_iff.1 hx)
    exact ⟨List.mem_range.1 (List.mem_filter.1 hi).1, rfl⟩
  have hids : ((r ++ rest).map Node.id).Perm ((List.range rowIds.length).filter (fun i => f (rowIds.getD i 0))) := by
    refine (r3.map Node.id).trans ?_
    rw [List.map_map, show (Node.id ∘ fun i => (⟨i, dist i⟩ : Node)) = id from rfl, List.map_id]
  have hnod : ((r ++ rest).map Node.id).Nodup := hids.nodup_iff.2 (List.nodup_range.sublist List.filter_sublist)
  rw [List.map_append] at hnod hids
  have hfound : o.found g rowIds dist (some (selectedPositions f rowIds)) k ef = some r := by
    unfold Order.found
    simp only
    rw [if_pos (by rw [selectedPositions_length dist]; exact hfew)]
    exact r1
  obtain ⟨l, l1, l2⟩ := search_found (o := o) (sel := some f) (dist := dist) hg hd hef (r := r) hfound (List.nodup_append.1 hnod).1 (fun x hx => hmem x (List.mem_append_left _ hx))
  refine ⟨l, l1, (rest.map Node.id).map (fun i => (dist i, rowIds.getD i 0)), ?_, ?_, ?_, ?_⟩
  · rw [l2, ← List.map_append]
    exact hids.map _
  · rw [l2, List.pairwise_map, List.pairwise_map]
    refine List.Pairwise.imp_of_mem ?_ r2
    intro a b ha hb hab
    simp only
    rw [← (hmem a (List.mem_append_left _ ha)).2, ← (hmem b (List.mem_append_left _ hb)).2]
    exact hab
  · rw [l2]
    have := hids.length_eq
    unfold selected
    simp only [List.length_map, List.length_append] at this ⊢
    simp only [Option.all_some]
    rw [← this]
    by_cases h : r.length < k
    · have := r5 h
      subst this
      simp
      omega
    · omega
  · rw [l2]
    intro x hx y hy
    simp only [List.map_map, List.mem_map, Function.comp] at hx hy
    obtain ⟨a, ha, rfl⟩ := hx
    obtain ⟨b, hb, rfl⟩ := hy
    simp only
    rw [← (hmem a (List.mem_append_left _ ha)).2, ← (hmem b (List.mem_append_right _ hb)).2]
    exact r6 a ha b hb

/-- C111: with a filter that selects less than a tenth of the rows, the nearest of them are given. -/
theorem C111_few (o : Order) (p : Params) (between : Nat → Nat → Int) (levels : List Nat) (rowIds : List Nat) (ho : o.Ok) (hm : 0 < p.m) (hl : 0 < p.maxLevel)
    (h : ∀ c ∈ levels, 0 < c ∧ c ≤ p.maxLevel) (hr : rowIds.length = levels.length + 1) (hd : rowIds.Nodup) :
    ∃ g g', o.build p between levels = some g ∧ load g.params g.levelOffsets g.rows = some g' ∧
      ∀ (dist : Nat → Int) (f : Nat → Bool) (k ef : Nat), 0 < k → k ≤ ef → (selected rowIds dist (some f)).length < rowIds.length / 10 →
        ∃ l, o.search g' rowIds dist (some f) k ef = some (.rows l) ∧ Nearest (selected rowIds dist (some f)) k (l.map (fun x => (x.2, x.1))) := by
  obtain ⟨g, g', g1, g2, g3, g4, _, g5, g6, _⟩ := build_load ho between hm hl h
  exact ⟨g, g', g1, g2, fun dist f k ef hk hef hfew => search_few ho g4 hd dist hk hef (by omega)⟩

/-- The hypotheses hold: six rows on a line, of which two have a second level. -/
theorem C111_nonvacuous : plain.Ok ∧ (∀ c ∈ [2, 1, 2, 1, 1], 0 < c ∧ c ≤ 3) ∧ [10, 11, 12, 13, 14, 15].Nodup ∧
    (plain.build ⟨3, 2, 10⟩ (onLine [0, 1, -1, 2, -2, 5]) [2, 1, 2, 1, 1]).bind
      (fun g => plain.search g [10, 11, 12, 13, 14, 15] (fun i => onLine [0, 1, -1, 2, -2, 5] i 3) (some (fun r => r != 13)) 2 3) = some (.rows [(11, 1), (10, 4)]) := by
  refine ⟨plain_ok, by decide, by decide, by decide +kernel⟩

end Verif.Hnsw
