import Verif.Hnsw.LemmasSearch
/-! # Searches of partitions: lemmas -/
namespace Verif.Hnsw
open Verif.Pq (Node Nearest nearest_take)

/-- The entry point has all levels, neighbors at a level have the level, and no node is a neighbor twice. -/
structure Wf (g : Graph) : Prop where
  levels : 0 < g.params.maxLevel
  entry : ∀ l < g.params.maxLevel, ∃ ns, g.ranked 0 l = some ns
  links : ∀ i l ns, g.ranked i l = some ns → (ns.map Node.id).Nodup ∧ ∀ x ∈ ns, ∃ ns', g.ranked x.id l = some ns'

theorem neighbors_eq (g : Graph) (l i : Nat) : g.neighbors l i = (g.ranked i l).map (fun ns => ns.map Node.id) := by
  unfold Graph.neighbors Graph.ranked
  cases g.nodes[i]? <;> rfl

theorem ranked_lt {g : Graph} {i l : Nat} {ns : List Node} (h : g.ranked i l = some ns) : i < g.nodes.length := by
  unfold Graph.ranked at h
  cases hi : g.nodes[i]? with
  | none => rw [hi] at h; simp at h
  | some n => exact (List.getElem?_eq_some_iff.1 hi).1

theorem ranked_down {g : Graph} {i l l' : Nat} {ns : List Node} (h : g.ranked i l = some ns) (hl : l' ≤ l) : ∃ ns', g.ranked i l' = some ns' := by
  unfold Graph.ranked at h ⊢
  cases hi : g.nodes[i]? with
  | none => rw [hi] at h; simp at h
  | some n =>
    rw [hi] at h
    have hlt := (List.getElem?_eq_some_iff.1 (show n.ranked[l]? = some ns from h)).1
    exact ⟨_, List.getElem?_eq_getElem (show l' < n.ranked.length by omega)⟩

/-- Neighbors are below a number, have the level, and are different. -/
def Under (g : Graph) (k : Nat) : Prop :=
  ∀ i l ns, g.ranked i l = some ns → (ns.map Node.id).Nodup ∧ ∀ x ∈ ns, x.id < k ∧ ∃ ns', g.ranked x.id l = some ns'

theorem Wf.under {g : Graph} (hg : Wf g) : Under g g.nodes.length := by
  intro i l ns h
  obtain ⟨h1, h2⟩ := hg.links i l ns h
  refine ⟨h1, fun x hx => ?_⟩
  obtain ⟨ns', h3⟩ := h2 x hx
  exact ⟨ranked_lt h3, ns', h3⟩

theorem under_links {g : Graph} {k : Nat} (hu : Under g k) (l : Nat) : Links g.nodes.length (g.neighbors l) (fun i => i < k ∧ ∃ ns, g.ranked i l = some ns) := by
  refine ⟨fun i ⟨_, ns, h⟩ => ranked_lt h, ?_⟩
  intro i ⟨_, ns, h⟩
  obtain ⟨h1, h2⟩ := hu i l ns h
  refine ⟨ns.map Node.id, by rw [neighbors_eq, h]; rfl, h1, ?_⟩
  intro x hx
  obtain ⟨y, hy, rfl⟩ := List.mem_map.1 hx
  exact h2 y hy

theorem descend_ok {g : Graph} {k : Nat} (hu : Under g k) (dist : Nat → Int) :
    ∀ (levels : List Nat) (ep : Node), levels.Pairwise (· > ·) → ep.dist = dist ep.id → ep.id < k → (∀ l ∈ levels, ∃ ns, g.ranked ep.id l = some ns) →
      ∃ r, descend g dist levels ep = some r ∧ r.dist = dist r.id ∧ r.dist ≤ ep.dist ∧ r.id < k ∧
        ∀ t, (∀ l ∈ levels, t ≤ l) → (∃ ns, g.ranked ep.id t = some ns) → ∃ ns, g.ranked r.id t = some ns
  | [], ep, _, hd, hk, _ => ⟨ep, rfl, hd, Int.le_refl _, hk, fun _ _ h => h⟩
  | l :: levels, ep, hp, hd, hk, h => by
    obtain ⟨hp1, hp2⟩ := List.pairwise_cons.1 hp
    obtain ⟨r, r1, ⟨r0, ns, r2⟩, r3, r4⟩ := greedy_ok (under_links hu l) dist (g.nodes.length + 1) ep ⟨hk, h l List.mem_cons_self⟩ hd (by
      have := closer_le g.nodes.length dist ep.dist
      omega)
    obtain ⟨r', q1, q2, q3, q5, q4⟩ := descend_ok hu dist levels r hp2 r3 r0 (fun l' hl' => ranked_down r2 (Nat.le_of_lt (hp1 l' hl')))
    refine ⟨r', ?_, q2, by omega, q5, ?_⟩
    · unfold descend
      rw [r1]
      exact q1
    · intro t ht _
      exact q4 t (fun l' hl' => ht l' (List.mem_cons_of_mem _ hl')) (ranked_down r2 (ht l List.mem_cons_self))

theorem levelsDown_pairwise (a b : Nat) : (levelsDown a b).Pairwise (· > ·) := by
  unfold levelsDown
  rw [List.pairwise_reverse, List.pairwise_map]
  exact List.pairwise_lt_range.imp (fun h => by omega)

theorem mem_levelsDown {a b l : Nat} : l ∈ levelsDown a b ↔ a ≤ l ∧ l < b := by
  unfold levelsDown
  simp only [List.mem_reverse, List.mem_map, List.mem_range]
  constructor
  · rintro ⟨x, hx, rfl⟩; omega
  · intro h; exact ⟨l - a, by omega, by omega⟩

theorem searchInner_ok {o : Order} (ho : o.Ok) {g : Graph} (hg : Wf g) (dist : Nat → Int) (bitset : Option (List Nat)) {k ef : Nat} (hef : 0 < ef) :
    ∃ (r : List Node) (ep : Nat), o.searchInner g dist bitset k ef = some (r.take k) ∧ r.Pairwise (fun x y => x.dist ≤ y.dist) ∧ (r.map Node.id).Nodup ∧ r.length ≤ ef ∧
      (∀ x ∈ r, x.id < g.nodes.length ∧ x.dist = dist x.id ∧ kept bitset x.id = true) ∧ ep < g.nodes.length ∧
      (r.length < ef → ∀ v, Reach (g.neighbors 0) ep v → kept bitset v = true → v ∈ r.map Node.id) := by
  obtain ⟨ns0, h0⟩ := hg.entry 0 hg.levels
  obtain ⟨ep, e1, e2, _, e5, e3⟩ := descend_ok hg.under dist (levelsDown 0 g.params.maxLevel) ⟨0, dist 0⟩ (levelsDown_pairwise _ _) rfl (ranked_lt h0)
    (fun l hl => hg.entry l (mem_levelsDown.1 hl).2)
  have e4 : ep.id < g.nodes.length ∧ _ := ⟨e5, e3 0 (fun l _ => Nat.zero_le _) (hg.entry 0 hg.levels)⟩
  obtain ⟨r, r1, r2, r3, r4, r5, _, r6⟩ := beam_ok ho (under_links hg.under 0) dist bitset ef (fun h => absurd h (by omega)) e4 e2
  refine ⟨r, ep.id, ?_, r2, r3, by omega, ?_, ?_, r6⟩
  · unfold Order.searchInner
    rw [e1]
    simp only
    rw [r1]
    rfl
  · intro x hx
    obtain ⟨⟨h1, _⟩, h2⟩ := r5 x hx
    exact ⟨h1, h2⟩
  · exact e5

/-! ## Flat search -/

theorem flatLoop_ok {o : Order} (ho : o.Ok) (dist : Nat → Int) {k : Nat} (hk : 0 < k) : ∀ (ids : List Nat) (heap dropped : List Node),
    heap.length ≤ k → (heap.length < k → dropped = []) → (∀ x ∈ heap, ∀ y ∈ dropped, x.dist ≤ y.dist) →
    ∃ heap' dropped', o.flatLoop dist k heap ids = some heap' ∧ (heap' ++ dropped').Perm (heap ++ dropped ++ ids.map (fun i => (⟨i, dist i⟩ : Node))) ∧
      heap'.length ≤ k ∧ (heap'.length < k → dropped' = []) ∧ ∀ x ∈ heap', ∀ y ∈ dropped', x.dist ≤ y.dist
  | [], heap, dropped, h1, h2, h3 => ⟨heap, dropped, rfl, by simp, h1, h2, h3⟩
  | id :: ids, heap, dropped, h1, h2, h3 => by
    unfold Order.flatLoop
    split
    · rename_i hlt
      have hd := h2 hlt
      subst hd
      obtain ⟨heap', dropped', f1, f2, f3⟩ := flatLoop_ok ho dist hk ids (⟨id, dist id⟩ :: heap) [] (by simp only [List.length_cons]; omega) (fun _ => rfl) (by simp)
      refine ⟨heap', dropped', f1, f2.trans ?_, f3⟩
      simp only [List.append_nil, List.map_cons]
      exact List.perm_middle.symm
    · rename_i hlt
      have hne : heap ≠ [] := by
        intro hc
        subst hc
        simp only [List.length_nil] at hlt
        omega
      obtain ⟨m, r, m1, m2, m3⟩ := ho.popMax heap hne
      rw [m1]
      simp only
      have hl := m2.length_eq
      simp only [List.length_cons] at hl
      have hm : m ∈ heap := m2.mem_iff.1 List.mem_cons_self
      split
      · rename_i hd
        obtain ⟨heap', dropped', f1, f2, f3⟩ := flatLoop_ok ho dist hk ids (⟨id, dist id⟩ :: r) (m :: dropped) (by simp only [List.length_cons]; omega)
          (by simp only [List.length_cons]; intro hc; omega) (by
            intro x hx y hy
            have hxm : x.dist ≤ m.dist := by
              rcases List.mem_cons.1 hx with rfl | hx
              · simp only; omega
              · exact m3 x hx
            rcases List.mem_cons.1 hy with rfl | hy
            · exact hxm
            · have := h3 m hm y hy
              omega)
        refine ⟨heap', dropped', f1, f2.trans ?_, f3⟩
        have p1 : (⟨id, dist id⟩ :: r ++ m :: dropped : List Node).Perm (heap ++ dropped ++ [⟨id, dist id⟩]) := by
          refine List.Perm.trans ?_ (List.perm_append_singleton _ _).symm
          refine (List.Perm.cons _ ?_)
          refine List.perm_middle.trans ?_
          exact m2.append_right dropped
        have := p1.append_right (ids.map (fun i => (⟨i, dist i⟩ : Node)))
        simpa using this
      · rename_i hd
        obtain ⟨heap', dropped', f1, f2, f3⟩ := flatLoop_ok ho dist hk ids heap (⟨id, dist id⟩ :: dropped) h1 (fun hc => absurd hc hlt) (by
          intro x hx y hy
          have hxm : x.dist ≤ m.dist := by
            rcases List.mem_cons.1 (m2.mem_iff.2 hx) with rfl | hx
            · exact Int.le_refl _
            · exact m3 x hx
          rcases List.mem_cons.1 hy with rfl | hy
          · simp only; omega
          · exact h3 x hx y hy)
        refine ⟨heap', dropped', f1, f2.trans ?_, f3⟩
        have p1 : (heap ++ (⟨id, dist id⟩ :: dropped) : List Node).Perm (heap ++ dropped ++ [⟨id, dist id⟩]) := by
          rw [List.append_assoc]
          exact (List.perm_append_singleton _ _).symm.append_left heap
        have := p1.append_right (ids.map (fun i => (⟨i, dist i⟩ : Node)))
        simpa using this

/-! ## Rows -/

theorem rowsOf_eq {rowIds : List Nat} : ∀ {ns : List Node}, (∀ x ∈ ns, x.id < rowIds.length) → rowsOf rowIds ns = some (ns.map (fun x => (rowIds.getD x.id 0, x.dist)))
  | [], _ => rfl
  | n :: ns, h => by
    unfold rowsOf
    have hn := h n List.mem_cons_self
    rw [rowsOf_eq (fun x hx => h x (List.mem_cons_of_mem _ hx)), List.getElem?_eq_getElem hn]
    simp [List.getD_eq_getElem?_getD, List.getElem?_eq_getElem hn]

theorem uniqueBy_spec : ∀ (l : List (Nat × Int)) (seen : List Nat),
    (uniqueBy seen l).Sublist l ∧ ((uniqueBy seen l).map Prod.fst).Nodup ∧ ∀ r ∈ uniqueBy seen l, r.1 ∉ seen
  | [], _ => ⟨List.Sublist.refl _, List.nodup_nil, by simp [uniqueBy]⟩
  | r :: l, seen => by
    unfold uniqueBy
    split
    · rename_i h
      obtain ⟨h1, h2, h3⟩ := uniqueBy_spec l seen
      exact ⟨h1.cons r, h2, h3⟩
    · rename_i h
      obtain ⟨h1, h2, h3⟩ := uniqueBy_spec l (r.1 :: seen)
      refine ⟨h1.cons_cons r, List.nodup_cons.2 ⟨?_, h2⟩, ?_⟩
      · intro hm
        obtain ⟨x, hx, he⟩ := List.mem_map.1 hm
        exact h3 x hx (he ▸ List.mem_cons_self)
      · intro x hx
        rcases List.mem_cons.1 hx with rfl | hx
        · simpa using h
        · exact fun hm => h3 x hx (List.mem_cons_of_mem _ hm)

theorem uniqueBy_id : ∀ (l : List (Nat × Int)) (seen : List Nat), (l.map Prod.fst).Nodup → (∀ r ∈ l, r.1 ∉ seen) → uniqueBy seen l = l
  | [], _, _, _ => rfl
  | r :: l, seen, h, hs => by
    obtain ⟨h1, h2⟩ := List.nodup_cons.1 h
    unfold uniqueBy
    rw [if_neg (by simpa using hs r List.mem_cons_self), uniqueBy_id l (r.1 :: seen) h2]
    intro x hx hm
    rcases List.mem_cons.1 hm with he | hm
    · exact h1 (List.mem_map.2 ⟨x, hx, he⟩)
    · exact hs x (List.mem_cons_of_mem _ hx) hm

theorem mem_selectedPositions {sel : Nat → Bool} {rowIds : List Nat} {i : Nat} : i ∈ selectedPositions sel rowIds ↔ ∃ r, rowIds[i]? = some r ∧ sel r = true := by
  unfold selectedPositions
  simp only [List.mem_filter, List.mem_range]
  constructor
  · rintro ⟨h1, h2⟩
    rw [List.getElem?_eq_getElem h1] at h2
    exact ⟨_, List.getElem?_eq_getElem h1, by simpa using h2⟩
  · rintro ⟨r, h1, h2⟩
    exact ⟨(List.getElem?_eq_some_iff.1 h1).1, by rw [h1]; simpa using h2⟩

theorem kept_selected {sel : Option (Nat → Bool)} {rowIds : List Nat} {i : Nat} (hi : i < rowIds.length) :
    kept (sel.map (fun f => selectedPositions f rowIds)) i = (match sel with | none => true | some f => f (rowIds.getD i 0)) := by
  cases sel with
  | none => rfl
  | some f =>
    show (selectedPositions f rowIds).contains i = f (rowIds.getD i 0)
    rw [Bool.eq_iff_iff, List.contains_iff_mem, mem_selectedPositions]
    rw [List.getElem?_eq_getElem hi]
    simp [List.getD_eq_getElem?_getD, List.getElem?_eq_getElem hi]

/-- The nodes that a search finds: selected, with their distances, in order. -/
theorem found_ok {o : Order} (ho : o.Ok) {g : Graph} (hg : Wf g) {rowIds : List Nat} (hn : g.nodes.length = rowIds.length) (dist : Nat → Int)
    (sel : Option (Nat → Bool)) {k ef : Nat} (hk : 0 < k) (hef : k ≤ ef) :
    ∃ r, o.found g rowIds dist (sel.map (fun f => selectedPositions f rowIds)) k ef = some r ∧ r.Pairwise (fun x y => x.dist ≤ y.dist) ∧ (r.map Node.id).Nodup ∧
      r.length ≤ k ∧ ∀ x ∈ r, x.id < rowIds.length ∧ x.dist = dist x.id ∧ kept (sel.map (fun f => selectedPositions f rowIds)) x.id = true := by
  have hinner : ∀ bitset, ∃ r, o.searchInner g dist bitset k ef = some r ∧ r.Pairwise (fun x y => x.dist ≤ y.dist) ∧ (r.map Node.id).Nodup ∧
      r.length ≤ k ∧ ∀ x ∈ r, x.id < rowIds.length ∧ x.dist = dist x.id ∧ kept bitset x.id = true := by
    intro bitset
    obtain ⟨r, ep, r1, r2, r3, _, r5, _⟩ := searchInner_ok ho hg dist bitset (k := k) (ef := ef) (by omega)
    refine ⟨_, r1, r2.sublist (List.take_sublist _ _), ?_, by rw [List.length_take]; omega, ?_⟩
    · rw [List.map_take]
      exact r3.sublist (List.take_sublist _ _)
    · intro x hx
      rw [← hn]
      exact r5 x (List.mem_of_mem_take hx)
  cases sel with
  | none =>
    unfold Order.found
    simp only [Option.map_none]
    rw [if_neg (by rw [hn]; omega)]
    exact hinner none
  | some f =>
    unfold Order.found
    simp only [Option.map_some]
    split
    · obtain ⟨heap, dropped, f1, f2, f3, _, _⟩ := flatLoop_ok ho dist hk ((List.range rowIds.length).filter (fun i => (selectedPositions f rowIds).contains i)) [] []
        (by simp) (fun _ => rfl) (by simp)
      have hp := ho.sort_perm heap
      have hmem : ∀ x ∈ heap, x ∈ ((List.range rowIds.length).filter (fun i => (selectedPositions f rowIds).contains i)).map (fun i => (⟨i, dist i⟩ : Node)) :=
        fun x hx => by simpa using f2.mem_iff.1 (List.mem_append_left _ hx)
      refine ⟨o.sort heap, by unfold Order.flatSearch; rw [f1]; rfl, ho.sort_sorted _, ?_, by rw [hp.length_eq]; exact f3, ?_⟩
      · refine ((hp.map Node.id).nodup_iff).2 ?_
        have hnd : ((heap ++ dropped).map Node.id).Nodup := by
          refine ((f2.map Node.id).nodup_iff).2 ?_
          simp only [List.nil_append, List.map_map]
          rw [show (Node.id ∘ fun i => (⟨i, dist i⟩ : Node)) = id from rfl, List.map_id]
          exact List.nodup_range.filter _
        rw [List.map_append] at hnd
        exact (List.nodup_append.1 hnd).1
      · intro x hx
        obtain ⟨i, hi, rfl⟩ := List.mem_map.1 (hmem x (hp.mem_iff.1 hx))
        obtain ⟨h1, h2⟩ := List.mem_filter.1 hi
        exact ⟨List.mem_range.1 h1, rfl, h2⟩
    · exact hinner _

end Verif.Hnsw
