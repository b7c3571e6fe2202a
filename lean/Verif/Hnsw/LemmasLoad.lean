import Verif.Hnsw.LemmasBuild
/-! # Writing and loading graphs: lemmas -/
namespace Verif.Hnsw
open Verif.Pq (Node)

/-! ## Rows of levels -/

theorem mem_levelRows {g : Graph} {level : Nat} {r : Row} : r ∈ g.levelRows level ↔ ∃ i ns, g.ranked i level = some ns ∧ r = ⟨i, ns.map Node.id, ns.map Node.dist⟩ := by
  unfold Graph.levelRows Graph.ranked
  rw [List.mem_filterMap]
  simp only [List.mem_iff_getElem? (l := List.mapIdx _ _), List.getElem?_mapIdx, Option.map_eq_some_iff]
  constructor
  · rintro ⟨p, ⟨i, n, hn, rfl⟩, ns, h1, rfl⟩
    exact ⟨i, ns, by rw [hn]; exact h1, rfl⟩
  · rintro ⟨i, ns, h, rfl⟩
    cases hn : g.nodes[i]? with
    | none => rw [hn] at h; simp at h
    | some n =>
      rw [hn] at h
      exact ⟨(i, n), ⟨i, n, hn, rfl⟩, ns, h, rfl⟩

theorem zip_row (ns : List Node) : List.zipWith Node.mk (ns.map Node.id) (ns.map Node.dist) = ns := by
  induction ns with
  | nil => rfl
  | cons n ns ih => simp only [List.map_cons, List.zipWith_cons_cons, ih]

theorem levelRows_pairwise (g : Graph) (level : Nat) : (g.levelRows level).Pairwise (fun a b => a.id < b.id) := by
  unfold Graph.levelRows
  apply List.Pairwise.filterMap (R := fun a b => a.1 < b.1)
  · intro a a' hlt b hb b' hb'
    simp only [Option.map_eq_some_iff] at hb hb'
    obtain ⟨_, _, rfl⟩ := hb
    obtain ⟨_, _, rfl⟩ := hb'
    exact hlt
  · rw [List.pairwise_iff_getElem]
    intro i j hi hj hij
    simp only [List.getElem_mapIdx]
    exact hij

theorem levelRows_length (g : Graph) (level : Nat) : (g.levelRows level).length = (shape g).countP (fun n => decide (level < n)) := by
  unfold Graph.levelRows shape
  rw [List.length_filterMap_eq_countP, List.countP_map]
  have h : ∀ (l : List GNode) (f : Nat → GNode → Nat × GNode), (∀ i n, (f i n).2 = n) →
      (l.mapIdx f).countP (fun a => ((a.2.ranked[level]?).map (fun ns => (⟨a.1, ns.map Node.id, ns.map Node.dist⟩ : Row))).isSome) =
        l.countP ((fun n => decide (level < n)) ∘ fun n => n.ranked.length) := by
    intro l
    induction l with
    | nil => intro f _; rfl
    | cons n l ih =>
      intro f hf
      rw [List.mapIdx_cons, List.countP_cons, List.countP_cons, ih (fun i => f (i + 1)) (fun i n => hf _ _)]
      congr 1
      rw [hf 0 n]
      simp only [Function.comp_apply, Option.isSome_map]
      by_cases hl : level < n.ranked.length
      · rw [List.getElem?_eq_getElem hl]
        simp [hl]
      · rw [List.getElem?_eq_none (by omega)]
        simp [hl]
  exact h g.nodes _ (fun _ _ => rfl)

/-! ## Offsets -/

theorem pairs_offsets : ∀ (cs : List Nat) (acc : Nat), (pairs (offsets acc (cs ++ [0]))).length = cs.length ∧
    (∀ w ∈ pairs (offsets acc (cs ++ [0])), w.1 ≤ w.2 ∧ w.2 ≤ acc + cs.sum) ∧ (∀ c cs', cs = c :: cs' → (pairs (offsets acc (cs ++ [0])))[0]? = some (acc, acc + c))
  | [], acc => by simp [offsets, pairs]
  | c :: cs, acc => by
    have ih := pairs_offsets cs (acc + c)
    have e : pairs (offsets acc (c :: cs ++ [0])) = (acc, acc + c) :: pairs (offsets (acc + c) (cs ++ [0])) := by
      cases cs with
      | nil => rfl
      | cons c' cs' => rfl
    rw [e]
    refine ⟨by simp [ih.1], ?_, ?_⟩
    · intro w hw
      rcases List.mem_cons.1 hw with rfl | hw
      · simp only [List.sum_cons]; omega
      · have := ih.2.1 w hw
        simp only [List.sum_cons]
        omega
    · intro c'' cs' h
      obtain ⟨rfl, rfl⟩ := List.cons.inj h
      rfl

/-! ## Counts -/

theorem addCount_getElem? (n : Nat) (c : List Nat) (l : Nat) : (addCount n c)[l]? = (c[l]?).map (fun x => if l < n then x + 1 else x) := by
  unfold addCount
  rw [List.getElem?_mapIdx]

theorem counts (levels : List Nat) : ∀ (c : List Nat) (l : Nat), (levels.foldl (fun c n => addCount n c) c)[l]? =
    (c[l]?).map (fun x => x + levels.countP (fun n => decide (l < n))) := by
  induction levels with
  | nil => intro c l; simp
  | cons n levels ih =>
    intro c l
    rw [List.foldl_cons, ih, addCount_getElem?, List.countP_cons]
    cases c[l]? with
    | none => rfl
    | some x =>
      simp only [Option.map_some]
      congr 1
      by_cases h : l < n
      · simp [h]; omega
      · simp [h]

theorem start_count (p : Params) (levels : List Nat) (l : Nat) : ((start p levels).levelCount)[l]? = if l < p.maxLevel then some (if l = 0 then 1 else 0) else none := by
  unfold start
  simp only [List.getElem?_mapIdx, List.getElem?_replicate]
  by_cases h : l < p.maxLevel
  · simp only [h, if_true, Option.map_some]
  · simp [h]

theorem sum_le : ∀ {xs ys : List Nat}, xs.length = ys.length → (∀ (i x y : Nat), xs[i]? = some x → ys[i]? = some y → x ≤ y) → xs.sum ≤ ys.sum
  | [], [], _, _ => by simp
  | x :: xs, y :: ys, hl, h => by
    have h0 := h 0 x y rfl rfl
    have ih := sum_le (xs := xs) (ys := ys) (by simpa using hl) (fun i a b ha hb => h (i + 1) a b (by simpa using ha) (by simpa using hb))
    simp only [List.sum_cons]
    omega
  | [], _ :: _, hl, _ => by simp at hl
  | _ :: _, [], hl, _ => by simp at hl

/-! ## Loading rows -/

/-- A graph of the nodes, to speak of its ranked neighbors. -/
def asGraph (p : Params) (nodes : List GNode) : Graph := ⟨p, nodes, []⟩

theorem loadRow_eq (p : Params) {level : Nat} {nodes : List GNode} {r : Row} (h : ∃ ns, (asGraph p nodes).ranked r.id level = some ns) :
    loadRow level nodes r = some ((asGraph p nodes).setRanked r.id level (List.zipWith Node.mk r.neighbors r.dists)).nodes := by
  obtain ⟨ns, h⟩ := h
  unfold Graph.ranked asGraph at h
  simp only at h
  unfold loadRow
  cases hn : nodes[r.id]? with
  | none => rw [hn] at h; simp at h
  | some n =>
    rw [hn] at h
    have hl := (List.getElem?_eq_some_iff.1 (show n.ranked[level]? = some ns from h)).1
    simp only
    rw [if_pos hl]
    congr 1
    unfold asGraph Graph.setRanked
    simp only
    apply List.ext_getElem?
    intro j
    rw [List.getElem?_set, List.getElem?_modify]
    by_cases hj : r.id = j
    · subst hj
      rw [if_pos rfl, if_pos (List.getElem?_eq_some_iff.1 hn).1, hn]
      simp
    · rw [if_neg hj]
      cases nodes[j]? <;> simp [hj]

theorem loadRows_ok (p : Params) {level : Nat} : ∀ (rows : List Row) {nodes : List GNode}, (∀ r ∈ rows, ∃ ns, (asGraph p nodes).ranked r.id level = some ns) →
    ∃ nodes', rows.foldlM (loadRow level) nodes = some nodes' ∧ shape (asGraph p nodes') = shape (asGraph p nodes) ∧
      (∀ i l, l ≠ level → (asGraph p nodes').ranked i l = (asGraph p nodes).ranked i l) ∧
      (∀ i ns, (asGraph p nodes').ranked i level = some ns → (asGraph p nodes).ranked i level = some ns ∨ ∃ r ∈ rows, ns = List.zipWith Node.mk r.neighbors r.dists) ∧
      (rows.Pairwise (fun a b => a.id < b.id) → ∀ r ∈ rows, (asGraph p nodes').ranked r.id level = some (List.zipWith Node.mk r.neighbors r.dists)) ∧
      (∀ i, (∀ r ∈ rows, r.id ≠ i) → (asGraph p nodes').ranked i level = (asGraph p nodes).ranked i level)
  | [], nodes, _ => ⟨nodes, rfl, rfl, fun _ _ _ => rfl, fun _ _ h => Or.inl h, by simp, fun _ _ => rfl⟩
  | r :: rows, nodes, h => by
    have hr := h r List.mem_cons_self
    let nodes1 := ((asGraph p nodes).setRanked r.id level (List.zipWith Node.mk r.neighbors r.dists)).nodes
    have hrank : ∀ i l, (asGraph p nodes1).ranked i l = if r.id = i ∧ level = l then ((asGraph p nodes).ranked i l).map (fun _ => List.zipWith Node.mk r.neighbors r.dists)
        else (asGraph p nodes).ranked i l := fun i l => ranked_setRanked (asGraph p nodes) r.id level _ i l
    have hsh : shape (asGraph p nodes1) = shape (asGraph p nodes) := shape_setRanked (asGraph p nodes) r.id level _
    obtain ⟨nodes2, n1, n2, n3, n4, n5, n6⟩ := loadRows_ok p rows (nodes := nodes1) (by
      intro x hx
      have := h x (List.mem_cons_of_mem _ hx)
      rw [ranked_iff] at this ⊢
      rw [hsh]
      exact this)
    refine ⟨nodes2, ?_, by rw [n2, hsh], ?_, ?_, ?_, ?_⟩
    · rw [List.foldlM_cons, loadRow_eq p hr]
      exact n1
    · intro i l hl
      rw [n3 i l hl, hrank, if_neg (fun hc => hl hc.2.symm)]
    · intro i ns hns
      rcases n4 i ns hns with h1 | ⟨x, hx, h1⟩
      · rw [hrank] at h1
        split at h1
        · rename_i hc
          obtain ⟨rfl, _⟩ := hc
          obtain ⟨ns0, h0⟩ := hr
          rw [h0] at h1
          exact Or.inr ⟨r, List.mem_cons_self, (Option.some.inj h1).symm⟩
        · exact Or.inl h1
      · exact Or.inr ⟨x, List.mem_cons_of_mem _ hx, h1⟩
    · intro hp x hx
      obtain ⟨p1, p2⟩ := List.pairwise_cons.1 hp
      rcases List.mem_cons.1 hx with rfl | hx
      · rw [n6 x.id (fun y hy => by have := p1 y hy; omega), hrank, if_pos ⟨rfl, rfl⟩]
        obtain ⟨ns0, h0⟩ := hr
        rw [h0]
        rfl
      · exact n5 p2 x hx
    · intro i hi
      rw [n6 i (fun x hx => hi x (List.mem_cons_of_mem _ hx)), hrank, if_neg (fun hc => hi r List.mem_cons_self hc.1)]

theorem loadLevels_ok (p : Params) {N M : Nat} (P : List Node → Prop) : ∀ (ls : List (List Row)) (level : Nat) {nodes : List GNode},
    shape (asGraph p nodes) = List.replicate N M → level + ls.length ≤ M → (∀ rows ∈ ls, ∀ r ∈ rows, r.id < N ∧ P (List.zipWith Node.mk r.neighbors r.dists)) →
    (∀ i l ns, (asGraph p nodes).ranked i l = some ns → P ns) →
    ∃ nodes', loadLevels level nodes ls = some nodes' ∧ shape (asGraph p nodes') = List.replicate N M ∧ (∀ i l ns, (asGraph p nodes').ranked i l = some ns → P ns) ∧
      (∀ i l, l < level → (asGraph p nodes').ranked i l = (asGraph p nodes).ranked i l) ∧
      (∀ rows, ls[0]? = some rows → rows.Pairwise (fun a b => a.id < b.id) → ∀ r ∈ rows, (asGraph p nodes').ranked r.id level = some (List.zipWith Node.mk r.neighbors r.dists))
  | [], level, nodes, h1, _, _, h4 => ⟨nodes, rfl, h1, h4, fun _ _ _ => rfl, by simp⟩
  | rows :: ls, level, nodes, h1, h2, h3, h4 => by
    have hlev : level < M := by simp only [List.length_cons] at h2; omega
    obtain ⟨nodes1, n1, n2, n3, n4, n5, _⟩ := loadRows_ok p (level := level) rows (nodes := nodes) (by
      intro r hr
      rw [ranked_iff, h1]
      exact ⟨M, by rw [List.getElem?_replicate, if_pos (h3 rows List.mem_cons_self r hr).1], hlev⟩)
    obtain ⟨nodes2, m1, m2, m3, m4, _⟩ := loadLevels_ok p P ls (level + 1) (nodes := nodes1) (by rw [n2, h1]) (by simp only [List.length_cons] at h2; omega)
      (fun x hx => h3 x (List.mem_cons_of_mem _ hx)) (by
        intro i l ns h
        by_cases hl : l = level
        · subst hl
          rcases n4 i ns h with h | ⟨r, hr, rfl⟩
          · exact h4 i l ns h
          · exact (h3 rows List.mem_cons_self r hr).2
        · rw [n3 i l hl] at h
          exact h4 i l ns h)
    refine ⟨nodes2, ?_, m2, m3, ?_, ?_⟩
    · unfold loadLevels
      rw [n1]
      exact m1
    · intro i l hl
      rw [m4 i l (by omega), n3 i l (by omega)]
    · intro rows' h5 hp r hr
      obtain rfl := Option.some.inj h5
      rw [m4 r.id level (Nat.lt_succ_self _)]
      exact n5 hp r hr

end Verif.Hnsw
