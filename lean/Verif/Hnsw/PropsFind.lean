import Verif.Hnsw.PropsSearch
import Verif.Deletion.Lemmas
/-!
# C112: a search of an HNSW partition finds enough rows
-/
namespace Verif.Hnsw
open Verif.Pq (Node Nearest nearest_take)

/-- The selected rows within the bounds `lo ≤ d < hi`. -/
def wanted (rowIds : List Nat) (dist : Nat → Int) (sel : Option (Nat → Bool)) (lo hi : Option Int) : List (Int × Nat) :=
  (selected rowIds dist sel).filter (fun z => lo.all (fun l => decide (l ≤ z.1)) && hi.all (fun h => decide (z.1 < h)))

/-- C112: a search is approximate, but gives as many of the selected rows within the bounds as there are, up to `k`, and only such rows; and if there are not more
of them than `ef`, the number of rows that the search keeps, it gives the nearest. -/
def C112_statement : Prop :=
  ∀ (o : Order) (p : Params) (between : Nat → Nat → Int) (levels : List Nat) (rowIds : List Nat), o.Ok → 1 < p.m → 0 < p.maxLevel →
    (∀ c ∈ levels, 0 < c ∧ c ≤ p.maxLevel) → rowIds.length = levels.length + 1 → rowIds.Nodup →
    ∃ g, o.build p between levels = some g ∧
      ∀ (dist : Nat → Int) (sel : Option (Nat → Bool)) (q : Query), 0 < q.count → q.count ≤ q.width →
        ∃ l, o.query g rowIds dist sel q = some (.rows l) ∧ (∀ x ∈ l, (x.2, x.1) ∈ wanted rowIds dist sel q.lo q.hi) ∧
          l.length = min q.count (wanted rowIds dist sel q.lo q.hi).length ∧
          ((wanted rowIds dist sel q.lo q.hi).length ≤ q.width → Nearest (wanted rowIds dist sel q.lo q.hi) q.count (l.map (fun x => (x.2, x.1))))

theorem subset_of_length {s t : List Nat} (hs : s.Nodup) (h : ∀ x ∈ s, x ∈ t) (hl : t.length ≤ s.length) : ∀ x ∈ t, x ∈ s := by
  intro x hx
  refine Classical.byContradiction fun hn => ?_
  have := Verif.Deletion.nodup_length_le (s := x :: s) (t := t) (List.nodup_cons.2 ⟨hn, hs⟩) (by
    intro y hy
    rcases List.mem_cons.1 hy with rfl | hy
    · exact hx
    · exact h y hy)
  simp only [List.length_cons] at this
  omega

theorem perm_of_mem {s t : List Nat} (hs : s.Nodup) (ht : t.Nodup) (h : ∀ x, x ∈ s ↔ x ∈ t) : s.Perm t := by
  rw [List.perm_iff_count]
  intro a
  rw [hs.count, ht.count]
  simp only [h a]

/-- What is found if all rows can be reached from all. -/
theorem search_connected {o : Order} (ho : o.Ok) {g : Graph} (hg : Wf g) {rowIds : List Nat} (hn : g.nodes.length = rowIds.length) (hd : rowIds.Nodup)
    (hc : ∀ i < rowIds.length, ∀ j < rowIds.length, Reach (g.neighbors 0) i j) (dist : Nat → Int) (sel : Option (Nat → Bool)) {k ef : Nat} (hk : 0 < k) (hef : k ≤ ef) :
    ∃ l, o.search g rowIds dist sel k ef = some (.rows l) ∧ (∀ x ∈ l, (x.2, x.1) ∈ selected rowIds dist sel) ∧
      l.length = min k (selected rowIds dist sel).length ∧
      ((selected rowIds dist sel).length ≤ ef → Nearest (selected rowIds dist sel) k (l.map (fun x => (x.2, x.1)))) := by
  have hfew : ∀ f, (selected rowIds dist (some f)).length < g.nodes.length * 10 / 100 →
      ∃ l, o.search g rowIds dist (some f) k ef = some (.rows l) ∧ (∀ x ∈ l, (x.2, x.1) ∈ selected rowIds dist (some f)) ∧
        l.length = min k (selected rowIds dist (some f)).length ∧
        ((selected rowIds dist (some f)).length ≤ ef → Nearest (selected rowIds dist (some f)) k (l.map (fun x => (x.2, x.1)))) := by
    intro f hf
    obtain ⟨l, l1, l2⟩ := search_few ho hg hd dist hk hef hf
    have l3 := l2
    obtain ⟨rest, h1, _, h3, _⟩ := l3
    refine ⟨l, l1, fun x hx => h1.mem_iff.1 (List.mem_append_left _ (List.mem_map.2 ⟨x, hx, rfl⟩)), by simpa using h3, fun _ => l2⟩
  obtain ⟨r, ep, r1, r2, r3, r4, r5, r6, r7⟩ := searchInner_ok ho hg dist (sel.map (fun f => selectedPositions f rowIds)) (k := k) (ef := ef) (by omega)
  have hinner : o.found g rowIds dist (sel.map (fun f => selectedPositions f rowIds)) k ef = some (r.take k) →
      ∃ l, o.search g rowIds dist sel k ef = some (.rows l) ∧ (∀ x ∈ l, (x.2, x.1) ∈ selected rowIds dist sel) ∧
        l.length = min k (selected rowIds dist sel).length ∧
        ((selected rowIds dist sel).length ≤ ef → Nearest (selected rowIds dist sel) k (l.map (fun x => (x.2, x.1)))) := by
    intro hf
    have hmem : ∀ x ∈ r.map Node.id, x ∈ (List.range rowIds.length).filter (fun i => sel.all (fun f => f (rowIds.getD i 0))) := by
      intro x hx
      obtain ⟨n, hn1, rfl⟩ := List.mem_map.1 hx
      obtain ⟨h1, _, h3⟩ := r5 n hn1
      rw [List.mem_filter, List.mem_range]
      exact ⟨by omega, by rw [← kept_all (by omega)]; exact h3⟩
    have hall : r.length < ef → ∀ x ∈ (List.range rowIds.length).filter (fun i => sel.all (fun f => f (rowIds.getD i 0))), x ∈ r.map Node.id := by
      intro hlt x hx
      obtain ⟨h1, h2⟩ := List.mem_filter.1 hx
      rw [List.mem_range] at h1
      exact r7 hlt x (hc ep (by omega) x h1) (by rw [kept_all h1]; exact h2)
    have hnod : ((List.range rowIds.length).filter (fun i => sel.all (fun f => f (rowIds.getD i 0)))).Nodup := List.nodup_range.sublist List.filter_sublist
    have hsel : (selected rowIds dist sel).length = ((List.range rowIds.length).filter (fun i => sel.all (fun f => f (rowIds.getD i 0)))).length := by
      unfold selected; rw [List.length_map]
    have hle := Verif.Deletion.nodup_length_le r3 hmem
    rw [List.length_map] at hle
    obtain ⟨l, l1, l2⟩ := search_found (o := o) (sel := sel) (dist := dist) hg hd hef hf (by rw [List.map_take]; exact r3.sublist (List.take_sublist _ _))
      (fun x hx => by have := r5 x (List.mem_of_mem_take hx); exact ⟨by omega, this.2.1⟩)
    have hlen : l.length = (r.take k).length := by
      have := congrArg List.length l2
      simpa using this
    refine ⟨l, l1, ?_, ?_, ?_⟩
    · intro x hx
      have h1 : (x.2, x.1) ∈ l.map (fun x => (x.2, x.1)) := List.mem_map.2 ⟨x, hx, rfl⟩
      rw [l2] at h1
      obtain ⟨i, hi, he⟩ := List.mem_map.1 h1
      rw [List.map_take] at hi
      rw [← he]
      exact List.mem_map.2 ⟨i, hmem i (List.mem_of_mem_take hi), rfl⟩
    · rw [hlen, List.length_take, hsel]
      by_cases hlt : r.length < ef
      · have := Verif.Deletion.nodup_length_le hnod (hall hlt)
        rw [List.length_map] at this
        omega
      · omega
    · intro hsm
      have hperm : (r.map Node.id).Perm ((List.range rowIds.length).filter (fun i => sel.all (fun f => f (rowIds.getD i 0)))) := by
        apply perm_of_mem r3 hnod
        intro x
        refine ⟨hmem x, fun hx => ?_⟩
        by_cases hlt : r.length < ef
        · exact hall hlt x hx
        · exact subset_of_length r3 hmem (by rw [List.length_map]; omega) x hx
      rw [l2, List.map_take, List.map_take]
      apply nearest_take k (hperm.map _)
      rw [List.pairwise_map, List.pairwise_map]
      refine List.Pairwise.imp_of_mem ?_ r2
      intro a b ha hb hab
      simp only
      rw [← (r5 a ha).2.1, ← (r5 b hb).2.1]
      exact hab
  cases sel with
  | none =>
    apply hinner
    unfold Order.found
    simp only [Option.map_none] at r1 ⊢
    rw [if_neg (by omega)]
    exact r1
  | some f =>
    by_cases h : (selected rowIds dist (some f)).length < g.nodes.length * 10 / 100
    · exact hfew f h
    · apply hinner
      unfold Order.found
      simp only [Option.map_some] at r1 ⊢
      rw [if_neg (by rw [selectedPositions_length dist]; exact h)]
      exact r1

/-- C112 in part: if all rows can be reached from all over the neighbors at level 0 and the query has no bounds.  What is missing: the graphs that the code builds
need not be so, and bounds are not applied. -/
theorem C112_connected_partial (o : Order) (p : Params) (between : Nat → Nat → Int) (levels : List Nat) (rowIds : List Nat) (ho : o.Ok) (hm : 0 < p.m) (hl : 0 < p.maxLevel)
    (h : ∀ c ∈ levels, 0 < c ∧ c ≤ p.maxLevel) (hr : rowIds.length = levels.length + 1) (hd : rowIds.Nodup) :
    ∃ g g', o.build p between levels = some g ∧ load g.params g.levelOffsets g.rows = some g' ∧
      ((∀ i < rowIds.length, ∀ j < rowIds.length, Reach (g.neighbors 0) i j) →
        ∀ (dist : Nat → Int) (sel : Option (Nat → Bool)) (q : Query), 0 < q.count → q.count ≤ q.width → ∀ x ∈ [g, g'],
          ∃ l, o.query x rowIds dist sel q = some (.rows l) ∧ (∀ x ∈ l, (x.2, x.1) ∈ selected rowIds dist sel) ∧
            l.length = min q.count (selected rowIds dist sel).length ∧
            ((selected rowIds dist sel).length ≤ q.width → Nearest (selected rowIds dist sel) q.count (l.map (fun x => (x.2, x.1))))) := by
  obtain ⟨g, g', g1, g2, g3, g4, _, g5, g6, g7⟩ := build_load ho between hm hl h
  refine ⟨g, g', g1, g2, fun hc dist sel q hk hef x hx => ?_⟩
  simp only [List.mem_cons, List.not_mem_nil, or_false] at hx
  rcases hx with rfl | rfl
  · exact search_connected ho g3 (by omega) hd hc dist sel hk hef
  · refine search_connected ho g4 (by omega) hd ?_ dist sel hk hef
    intro i hi j hj
    have hreach : ∀ j, Reach (g.neighbors 0) i j → Reach (x.neighbors 0) i j := by
      intro j hj
      induction hj with
      | refl => exact Reach.refl
      | step h1 h2 h3 ih =>
        rename_i b _ _
        refine Reach.step ih ?_ h3
        rw [g7 b ?_, h2]
        rw [neighbors_eq] at h2
        cases hb : g.ranked b 0 with
        | none => rw [hb] at h2; simp at h2
        | some ns => have := ranked_lt hb; omega
    exact hreach j (hc i hi j hj)

def exPoints : List Int := [0, 1, -1, 2, -2, 100]

def exIds : List Nat := [10, 11, 12, 13, 14, 15]

/-- Six rows on a line, all at level 0, with at most four neighbors.  The last is far from the others and is no neighbor of any: it is not found by a query that is
equal to it and asks for all rows; with a filter that selects only it, nothing is found. -/
theorem C112_lost_violated :
    (plain.build ⟨2, 2, 10⟩ (onLine exPoints) [1, 1, 1, 1, 1]).bind (fun g => plain.query g exIds (onLine exPoints 5) none ⟨6, none, none, none, none⟩) =
      some (.rows [(13, 9604), (11, 9801), (10, 10000), (12, 10201), (14, 10404)]) ∧
    (plain.build ⟨2, 2, 10⟩ (onLine exPoints) [1, 1, 1, 1, 1]).bind (fun g => plain.query g exIds (onLine exPoints 5) (some (fun r => r == 15)) ⟨1, none, some 10, none, none⟩) =
      some (.rows []) := by
  constructor <;> decide +kernel

/-- The bounds of a query are not applied: all rows at distance 100 or more are asked for, the row at distance 0 is given. -/
theorem C112_bounds_violated (o : Order) (g : Graph) (rowIds : List Nat) (dist : Nat → Int) (sel : Option (Nat → Bool)) (q : Query) :
    o.query g rowIds dist sel q = o.query g rowIds dist sel { q with lo := none, hi := none } ∧
    (plain.build ⟨2, 2, 10⟩ (onLine exPoints) [1, 1, 1, 1, 1]).bind (fun g => plain.query g exIds (onLine exPoints 0) none ⟨1, none, none, some 100, none⟩) =
      some (.rows [(10, 0)]) :=
  ⟨rfl, by decide +kernel⟩

theorem C112_violated : ¬C112_statement := by
  intro h
  obtain ⟨g, g1, g2⟩ := h plain ⟨2, 2, 10⟩ (onLine exPoints) [1, 1, 1, 1, 1] exIds plain_ok (by decide) (by decide) (by decide) (by decide) (by decide)
  obtain ⟨l, l1, _, l3, _⟩ := g2 (onLine exPoints 5) none ⟨6, none, none, none, none⟩ (by decide) (by decide)
  have e := C112_lost_violated.1
  rw [g1, Option.bind_some, l1] at e
  simp only [Option.some.injEq, Outcome.rows.injEq] at e
  rw [e] at l3
  exact absurd l3 (by decide)

/-- The hypotheses hold: in the graph of three rows all are neighbors of each other. -/
theorem C112_nonvacuous : ∃ g, plain.build ⟨2, 2, 10⟩ (onLine [0, 1, 2]) [1, 1] = some g ∧ ∀ i < 3, ∀ j < 3, Reach (g.neighbors 0) i j := by
  obtain ⟨g, hg⟩ : ∃ g, plain.build ⟨2, 2, 10⟩ (onLine [0, 1, 2]) [1, 1] = some g := by
    have : (plain.build ⟨2, 2, 10⟩ (onLine [0, 1, 2]) [1, 1]).isSome = true := by decide +kernel
    exact Option.isSome_iff_exists.1 this
  refine ⟨g, hg, ?_⟩
  have e : (plain.build ⟨2, 2, 10⟩ (onLine [0, 1, 2]) [1, 1]).map (fun g => (g.neighbors 0 0, g.neighbors 0 1, g.neighbors 0 2)) =
      some (some [1, 2], some [0, 2], some [1, 0]) := by decide +kernel
  rw [hg] at e
  simp only [Option.map_some, Option.some.injEq, Prod.mk.injEq] at e
  obtain ⟨e0, e1, e2⟩ := e
  intro i hi j hj
  match i, hi, j, hj with
  | 0, _, 0, _ | 1, _, 1, _ | 2, _, 2, _ => exact Reach.refl
  | 0, _, 1, _ | 0, _, 2, _ => exact Reach.refl.step e0 (by simp)
  | 1, _, 0, _ | 1, _, 2, _ => exact Reach.refl.step e1 (by simp)
  | 2, _, 0, _ | 2, _, 1, _ => exact Reach.refl.step e2 (by simp)

end Verif.Hnsw
