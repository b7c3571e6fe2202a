import Verif.Hnsw.LemmasFind
/-! # Building graphs: lemmas -/
namespace Verif.Hnsw
open Verif.Pq (Node)

/-! ## Pruning -/

theorem selectLoop_sublist (between : Nat → Nat → Int) (k : Nat) : ∀ (us res : List Node), (selectLoop between k res us).Sublist (res ++ us)
  | [], res => by unfold selectLoop; simp
  | u :: us, res => by
    unfold selectLoop
    split
    · exact List.sublist_append_left _ _
    · split
      · have := selectLoop_sublist between k us (res ++ [u])
        simpa using this
      · refine (selectLoop_sublist between k us res).trans ?_
        exact (List.sublist_cons_self _ _).append_left res

theorem prune_spec {o : Order} (ho : o.Ok) (between : Nat → Nat → Int) (p : Params) (level : Nat) (l : List Node) :
    (∀ x ∈ o.prune between p level l, x ∈ l) ∧ ((l.map Node.id).Nodup → ((o.prune between p level l).map Node.id).Nodup) := by
  unfold Order.prune Order.select
  split
  · exact ⟨fun x hx => hx, fun h => h⟩
  · have hs : (selectLoop between (p.mMax level) [] (o.sort l)).Sublist (o.sort l) := by simpa using selectLoop_sublist between (p.mMax level) (o.sort l) []
    have hp := ho.sort_perm l
    refine ⟨fun x hx => hp.mem_iff.1 (hs.mem hx), fun h => ?_⟩
    exact (((hp.map Node.id).nodup_iff).2 h).sublist (hs.map Node.id)

/-! ## Changes of the graph -/

theorem ranked_setRanked (g : Graph) (i l : Nat) (v : List Node) (i' l' : Nat) :
    (g.setRanked i l v).ranked i' l' = if i = i' ∧ l = l' then (g.ranked i' l').map (fun _ => v) else g.ranked i' l' := by
  unfold Graph.setRanked Graph.ranked
  simp only
  rw [List.getElem?_modify]
  cases hn : g.nodes[i']? with
  | none => simp
  | some n =>
    by_cases hi : i = i'
    · subst hi
      simp only [if_true, Option.map_eq_map, Option.map_some, Option.bind_some, true_and]
      by_cases hl : l = l'
      · subst hl
        rw [if_pos rfl, List.getElem?_set_self']
        rfl
      · rw [if_neg hl, List.getElem?_set_ne hl]
    · simp [hi]

theorem setRanked_some (g : Graph) (i l : Nat) (v : List Node) {i' l' : Nat} (h : ∃ ns, g.ranked i' l' = some ns) : ∃ ns, (g.setRanked i l v).ranked i' l' = some ns := by
  obtain ⟨ns, h⟩ := h
  rw [ranked_setRanked, h]
  split <;> exact ⟨_, rfl⟩

/-- The numbers of levels of the nodes. -/
def shape (g : Graph) : List Nat := g.nodes.map (fun n => n.ranked.length)

theorem shape_setRanked (g : Graph) (i l : Nat) (v : List Node) : shape (g.setRanked i l v) = shape g := by
  unfold shape Graph.setRanked
  apply List.ext_getElem?
  intro j
  simp only [List.getElem?_map, List.getElem?_modify]
  cases g.nodes[j]? with
  | none => rfl
  | some n =>
    simp only [Option.map_eq_map, Option.map_some]
    split <;> simp

theorem ranked_iff (g : Graph) (i l : Nat) : (∃ ns, g.ranked i l = some ns) ↔ ∃ n, (shape g)[i]? = some n ∧ l < n := by
  unfold Graph.ranked shape
  rw [List.getElem?_map]
  cases hn : g.nodes[i]? with
  | none => simp
  | some n =>
    simp only [Option.bind_some, Option.map_some, Option.some.injEq, exists_eq_left']
    constructor
    · rintro ⟨ns, h⟩
      exact (List.getElem?_eq_some_iff.1 h).1
    · intro h
      exact ⟨_, List.getElem?_eq_getElem h⟩

/-- The graph after the nodes below `k` were inserted. -/
structure Good (g : Graph) (k : Nat) : Prop where
  under : Under g k
  empty : ∀ i l ns, k ≤ i → g.ranked i l = some ns → ns = []

/-- The lists of a level may get the node `k` as a new neighbor. -/
theorem backLink_ok {o : Order} (ho : o.Ok) (between : Nat → Nat → Int) {k level : Nat} {g : Graph} (hg : Good g (k + 1)) (hm : 0 < g.params.m)
    (hlev : ∃ ns, g.ranked k level = some ns) {e : Node} (he : e.id < k) (hex : ∃ ns, g.ranked e.id level = some ns)
    (hnew : ∀ ns, g.ranked e.id level = some ns → k ∉ ns.map Node.id) :
    ∃ g', o.backLink between k level g e = some g' ∧ Good g' (k + 1) ∧ g'.params = g.params ∧ shape g' = shape g ∧ g'.levelCount = g.levelCount ∧
      ∀ i l, ¬ (i = e.id ∧ l = level) → g'.ranked i l = g.ranked i l := by
  obtain ⟨ns, hns⟩ := hex
  unfold Order.backLink
  rw [hns]
  simp only
  have hmm : 0 < g.params.mMax level := by
    unfold Params.mMax
    split <;> omega
  have hb : ∃ b, below (g.params.mMax level) ns e.dist = some b := by
    unfold below
    split
    · exact ⟨_, rfl⟩
    · rename_i h
      have hne : ns ≠ [] := by
        intro hc
        subst hc
        simp only [List.length_nil] at h
        omega
      rw [List.getLast?_eq_some_getLast hne]
      exact ⟨_, rfl⟩
  obtain ⟨b, hb⟩ := hb
  rw [hb]
  cases b with
  | false => exact ⟨g, rfl, hg, rfl, rfl, rfl, fun _ _ _ => rfl⟩
  | true =>
    obtain ⟨p1, p2⟩ := prune_spec ho between g.params level (ns ++ [⟨k, e.dist⟩])
    obtain ⟨u1, u2⟩ := hg.under e.id level ns hns
    refine ⟨_, rfl, ⟨?_, ?_⟩, rfl, shape_setRanked _ _ _ _, rfl, ?_⟩
    · intro i l ns' h
      rw [ranked_setRanked] at h
      split at h
      · rename_i hil
        obtain ⟨rfl, rfl⟩ := hil
        rw [hns] at h
        simp only [Option.map_some, Option.some.injEq] at h
        subst h
        refine ⟨?_, ?_⟩
        · apply p2
          rw [List.map_append]
          refine List.nodup_append.2 ⟨u1, by simp, ?_⟩
          intro a ha c hc hac
          simp only [List.map_cons, List.map_nil, List.mem_singleton] at hc
          subst hc hac
          exact hnew ns hns ha
        · intro x hx
          rcases List.mem_append.1 (p1 x hx) with hx | hx
          · exact ⟨(u2 x hx).1, setRanked_some _ _ _ _ (u2 x hx).2⟩
          · simp only [List.mem_singleton] at hx
            subst hx
            exact ⟨Nat.lt_succ_self _, setRanked_some _ _ _ _ hlev⟩
      · obtain ⟨w1, w2⟩ := hg.under i l ns' h
        exact ⟨w1, fun x hx => ⟨(w2 x hx).1, setRanked_some _ _ _ _ (w2 x hx).2⟩⟩
    · intro i l ns' hi h
      rw [ranked_setRanked, if_neg (by omega)] at h
      exact hg.empty i l ns' hi h
    · intro i l hil
      rw [ranked_setRanked, if_neg (fun h => hil ⟨h.1.symm, h.2.symm⟩)]

theorem backLevel_ok {o : Order} (ho : o.Ok) (between : Nat → Nat → Int) {k level : Nat} : ∀ (es : List Node) {g : Graph}, Good g (k + 1) → 0 < g.params.m →
    (∃ ns, g.ranked k level = some ns) → (es.map Node.id).Nodup → (∀ e ∈ es, e.id < k ∧ ∃ ns, g.ranked e.id level = some ns) →
    (∀ e ∈ es, ∀ ns, g.ranked e.id level = some ns → k ∉ ns.map Node.id) →
    ∃ g', es.foldlM (o.backLink between k level) g = some g' ∧ Good g' (k + 1) ∧ g'.params = g.params ∧ shape g' = shape g ∧ g'.levelCount = g.levelCount ∧
      ∀ i l, l ≠ level → g'.ranked i l = g.ranked i l
  | [], g, hg, _, _, _, _, _ => ⟨g, rfl, hg, rfl, rfl, rfl, fun _ _ _ => rfl⟩
  | e :: es, g, hg, hm, hlev, hn, he, hnew => by
    obtain ⟨hn1, hn2⟩ := List.nodup_cons.1 hn
    obtain ⟨e1, e2⟩ := he e List.mem_cons_self
    obtain ⟨g1, b1, b2, b3, b4, b5, b6⟩ := backLink_ok ho between hg hm hlev e1 e2 (hnew e List.mem_cons_self)
    have hsome : ∀ i l, (∃ ns, g.ranked i l = some ns) → ∃ ns, g1.ranked i l = some ns := by
      intro i l h
      rw [ranked_iff] at h ⊢
      rw [b4]
      exact h
    obtain ⟨g2, c1, c2, c3, c4, c5, c6⟩ := backLevel_ok ho between es b2 (by rw [b3]; exact hm) (hsome _ _ hlev) hn2
      (fun x hx => ⟨(he x (List.mem_cons_of_mem _ hx)).1, hsome _ _ (he x (List.mem_cons_of_mem _ hx)).2⟩) (by
        intro x hx ns hns
        have hne : ¬ (x.id = e.id ∧ level = level) := by
          intro hc
          exact hn1 (List.mem_map.2 ⟨x, hx, hc.1⟩)
        rw [b6 _ _ hne] at hns
        exact hnew x (List.mem_cons_of_mem _ hx) ns hns)
    refine ⟨g2, ?_, c2, by rw [c3, b3], by rw [c4, b4], by rw [c5, b5], ?_⟩
    · rw [List.foldlM_cons, b1]
      exact c1
    · intro i l hl
      rw [c6 i l hl, b6 i l (fun h => hl h.2)]

theorem backLinks_ok {o : Order} (ho : o.Ok) (between : Nat → Nat → Int) {k : Nat} : ∀ (ls : List (List Node)) (level : Nat) {g : Graph}, Good g (k + 1) → 0 < g.params.m →
    (∀ (j : Nat) (es : List Node), ls[j]? = some es → (∃ ns, g.ranked k (level + j) = some ns) ∧ (es.map Node.id).Nodup ∧
      ∀ e ∈ es, e.id < k ∧ (∃ ns, g.ranked e.id (level + j) = some ns) ∧ ∀ ns, g.ranked e.id (level + j) = some ns → k ∉ ns.map Node.id) →
    ∃ g', o.backLinks between k level g ls = some g' ∧ Good g' (k + 1) ∧ g'.params = g.params ∧ shape g' = shape g ∧ g'.levelCount = g.levelCount
  | [], _, g, hg, _, _ => ⟨g, rfl, hg, rfl, rfl, rfl⟩
  | es :: ls, level, g, hg, hm, h => by
    obtain ⟨h1, h2, h3⟩ := h 0 es rfl
    rw [Nat.add_zero] at h1 h3
    obtain ⟨g1, b1, b2, b3, b4, b5, b6⟩ := backLevel_ok ho between es hg hm h1 h2 (fun e he => ⟨(h3 e he).1, (h3 e he).2.1⟩) (fun e he => (h3 e he).2.2)
    obtain ⟨g2, c1, c2, c3, c4, c5⟩ := backLinks_ok ho between ls (level + 1) b2 (by rw [b3]; exact hm) (by
      intro j es' hj
      have e : level + 1 + j = level + (j + 1) := by omega
      obtain ⟨d1, d2, d3⟩ := h (j + 1) es' (by simpa using hj)
      rw [e]
      have hne : level + (j + 1) ≠ level := by omega
      refine ⟨by rw [b6 _ _ hne]; exact d1, d2, ?_⟩
      intro x hx
      rw [b6 _ _ hne]
      exact d3 x hx)
    refine ⟨g2, ?_, c2, by rw [c3, b3], by rw [c4, b4], by rw [c5, b5]⟩
    unfold Order.backLinks
    rw [b1]
    exact c1

theorem linkLevels_ok {o : Order} (ho : o.Ok) (between : Nat → Nat → Int) {k : Nat} {g : Graph} (hg : Good g k) : ∀ (levels : Nat) (ep : Node),
    ep.dist = between k ep.id → ep.id < k → (∀ l < levels, ∃ ns, g.ranked ep.id l = some ns) → (∀ l < levels, ∃ ns, g.ranked k l = some ns) →
    ∃ ls, o.linkLevels between k g levels ep = some ls ∧ ls.length = levels ∧ ∀ (j : Nat) (es : List Node), ls[j]? = some es → (es.map Node.id).Nodup ∧
      ∀ e ∈ es, e.id < k ∧ ∃ ns, g.ranked e.id j = some ns
  | 0, _, _, _, _, _ => ⟨[], rfl, rfl, by simp⟩
  | level + 1, ep, hd, hk, h, hown => by
    obtain ⟨r, r1, r2, r3, _, r5, r6, _⟩ := beam_ok ho (under_links hg.under level) (between k) none g.params.efConstruction (fun _ => rfl)
      (ep := ep) ⟨hk, h level (Nat.lt_succ_self _)⟩ hd
    obtain ⟨own, hown1⟩ := hown level (Nat.lt_succ_self _)
    have hempty := hg.empty k level own (Nat.le_refl _) hown1
    subst hempty
    obtain ⟨p1, p2⟩ := prune_spec ho between g.params level ([] ++ r)
    unfold Order.linkLevels
    rw [r1, hown1]
    simp only
    cases r with
    | nil => exact absurd rfl (r6 rfl)
    | cons next rest =>
      simp only
      obtain ⟨⟨n1, nsn, n2⟩, n3, _⟩ := r5 next List.mem_cons_self
      obtain ⟨ls, l1, l2, l3⟩ := linkLevels_ok ho between hg level next n3 n1 (fun l hl => ranked_down n2 (by omega)) (fun l hl => hown l (by omega))
      rw [l1]
      refine ⟨_, rfl, by simp [l2], ?_⟩
      intro j es hj
      by_cases hjl : j < ls.length
      · rw [List.getElem?_append_left hjl] at hj
        exact l3 j es hj
      · rw [List.getElem?_append_right (by omega)] at hj
        have hj0 : j - ls.length = 0 := by
          have := (List.getElem?_eq_some_iff.1 hj).1
          simp only [List.length_singleton] at this
          omega
        rw [hj0] at hj
        simp only [List.getElem?_cons_zero, Option.some.injEq] at hj
        subst hj
        have hjeq : j = level := by omega
        subst hjeq
        refine ⟨p2 (by simpa using r3), ?_⟩
        intro e he
        have := p1 e he
        rw [List.nil_append] at this
        exact (r5 e this).1

theorem insert_ok {o : Order} (ho : o.Ok) (between : Nat → Nat → Int) {k : Nat} {g : Graph} (hg : Good g k) (hm : 0 < g.params.m) (hk : 0 < k)
    {levels : Nat} (hl : (shape g)[k]? = some levels) (hl1 : 0 < levels) (hl2 : levels ≤ g.params.maxLevel) (h0 : (shape g)[0]? = some g.params.maxLevel) :
    ∃ g', o.insert between g k = some g' ∧ Good g' (k + 1) ∧ g'.params = g.params ∧ shape g' = shape g ∧ g'.levelCount = addCount levels g.levelCount := by
  have hrk : ∀ l < levels, ∃ ns, g.ranked k l = some ns := fun l h => (ranked_iff g k l).2 ⟨_, hl, h⟩
  have hr0 : ∀ l < g.params.maxLevel, ∃ ns, g.ranked 0 l = some ns := fun l h => (ranked_iff g 0 l).2 ⟨_, h0, h⟩
  obtain ⟨n, hn, hn2⟩ : ∃ n, g.nodes[k]? = some n ∧ n.ranked.length = levels := by
    unfold shape at hl
    rw [List.getElem?_map] at hl
    cases hg' : g.nodes[k]? with
    | none => rw [hg'] at hl; simp at hl
    | some n => rw [hg'] at hl; exact ⟨n, rfl, by simpa using hl⟩
  obtain ⟨ep, e1, e2, _, e3, e4⟩ := descend_ok hg.under (between k) (levelsDown levels g.params.maxLevel) ⟨0, between k 0⟩ (levelsDown_pairwise _ _) rfl hk
    (fun l h => hr0 l (mem_levelsDown.1 h).2)
  have e5 : ∀ l < levels, ∃ ns, g.ranked ep.id l = some ns := fun l h => e4 l (fun l' h' => by have := (mem_levelsDown.1 h').1; omega) (hr0 l (by omega))
  obtain ⟨ls, l1, l2, l3⟩ := linkLevels_ok ho between hg levels ep e2 e3 e5 hrk
  let g1 : Graph := { g with nodes := g.nodes.set k ⟨ls⟩, levelCount := addCount levels g.levelCount }
  have hlen : k < g.nodes.length := (List.getElem?_eq_some_iff.1 hn).1
  have hsh : shape g1 = shape g := by
    show (g.nodes.set k ⟨ls⟩).map (fun n => n.ranked.length) = g.nodes.map (fun n => n.ranked.length)
    apply List.ext_getElem?
    intro i
    rw [List.getElem?_map, List.getElem?_map, List.getElem?_set]
    by_cases hi : k = i
    · subst hi
      rw [if_pos rfl, if_pos hlen, hn]
      simp [hn2, l2]
    · rw [if_neg hi]
  have hsome : ∀ i l, (∃ ns, g.ranked i l = some ns) → ∃ ns, g1.ranked i l = some ns := by
    intro i l h
    rw [ranked_iff] at h ⊢
    rw [hsh]
    exact h
  have hsame : ∀ i l, i ≠ k → g1.ranked i l = g.ranked i l := by
    intro i l hi
    show ((g.nodes.set k ⟨ls⟩)[i]?).bind _ = _
    rw [List.getElem?_set_ne (by omega)]
    rfl
  have hself : ∀ l, g1.ranked k l = ls[l]? := by
    intro l
    show ((g.nodes.set k ⟨ls⟩)[k]?).bind _ = _
    rw [List.getElem?_set_self hlen]
    rfl
  have hg1 : Good g1 (k + 1) := by
    refine ⟨?_, ?_⟩
    · intro i l ns h
      by_cases hi : i = k
      · subst hi
        rw [hself] at h
        obtain ⟨a1, a2⟩ := l3 l ns h
        exact ⟨a1, fun x hx => ⟨by have := (a2 x hx).1; omega, hsome _ _ (a2 x hx).2⟩⟩
      · rw [hsame i l hi] at h
        obtain ⟨a1, a2⟩ := hg.under i l ns h
        exact ⟨a1, fun x hx => ⟨by have := (a2 x hx).1; omega, hsome _ _ (a2 x hx).2⟩⟩
    · intro i l ns hi h
      rw [hsame i l (by omega)] at h
      exact hg.empty i l ns (by omega) h
  obtain ⟨g2, b1, b2, b3, b4, b5⟩ := backLinks_ok ho between ls 0 hg1 hm (by
    intro j es hj
    rw [Nat.zero_add]
    obtain ⟨a1, a2⟩ := l3 j es hj
    refine ⟨⟨es, by rw [hself]; exact hj⟩, a1, ?_⟩
    intro e he
    obtain ⟨c1, c2⟩ := a2 e he
    refine ⟨c1, hsome _ _ c2, ?_⟩
    intro ns hns hc
    rw [hsame _ _ (by omega)] at hns
    obtain ⟨x, hx, hxe⟩ := List.mem_map.1 hc
    have := ((hg.under _ _ _ hns).2 x hx).1
    omega)
  refine ⟨g2, ?_, b2, b3, by rw [b4, hsh], b5⟩
  unfold Order.insert
  rw [hn]
  simp only [hn2]
  rw [if_neg (by omega), e1]
  simp only
  rw [l1]
  exact b1

theorem start_shape (p : Params) (levels : List Nat) : shape (start p levels) = p.maxLevel :: levels := by
  unfold shape start emptyNode
  simp [Function.comp_def]

theorem start_good (p : Params) (levels : List Nat) : Good (start p levels) 1 := by
  have h : ∀ i l ns, (start p levels).ranked i l = some ns → ns = [] := by
    intro i l ns h
    unfold Graph.ranked at h
    cases hn : (start p levels).nodes[i]? with
    | none => rw [hn] at h; simp at h
    | some n =>
      rw [hn] at h
      have hm := List.mem_of_getElem? hn
      have : ∃ c, n = emptyNode c := by
        unfold start at hm
        rcases List.mem_cons.1 hm with rfl | hm
        · exact ⟨_, rfl⟩
        · obtain ⟨c, _, rfl⟩ := List.mem_map.1 hm
          exact ⟨c, rfl⟩
      obtain ⟨c, rfl⟩ := this
      have := List.mem_of_getElem? (show (emptyNode c).ranked[l]? = some ns from h)
      exact (List.mem_replicate.1 this).2
  refine ⟨?_, fun i l ns _ hr => h i l ns hr⟩
  intro i l ns hr
  rw [h i l ns hr]
  exact ⟨by simp, by simp⟩

/-- Inserting the nodes from `k` on. -/
theorem inserts_ok {o : Order} (ho : o.Ok) (between : Nat → Nat → Int) : ∀ (rest : List Nat) (k : Nat) {g : Graph}, Good g k → 0 < g.params.m → 0 < k →
    (shape g)[0]? = some g.params.maxLevel → (shape g).drop k = rest → (∀ c ∈ rest, 0 < c ∧ c ≤ g.params.maxLevel) →
    ∃ g', ((List.range' k rest.length)).foldlM (o.insert between) g = some g' ∧ Good g' (k + rest.length) ∧ g'.params = g.params ∧ shape g' = shape g ∧
      g'.levelCount = rest.foldl (fun c n => addCount n c) g.levelCount
  | [], k, g, hg, _, _, _, _, _ => ⟨g, rfl, hg, rfl, rfl, rfl⟩
  | c :: rest, k, g, hg, hm, hk, h0, hd, hc => by
    have hk' : (shape g)[k]? = some c := by
      have := congrArg (fun l => l[0]?) hd
      simpa using this
    obtain ⟨c1, c2⟩ := hc c List.mem_cons_self
    obtain ⟨g1, b1, b2, b3, b4, b5⟩ := insert_ok ho between hg hm hk hk' c1 c2 h0
    obtain ⟨g2, d1, d2, d3, d4, d5⟩ := inserts_ok ho between rest (k + 1) b2 (by rw [b3]; exact hm) (by omega) (by rw [b3, b4]; exact h0)
      (by rw [b4, ← List.drop_drop, hd]; rfl) (fun x hx => by rw [b3]; exact hc x (List.mem_cons_of_mem _ hx))
    refine ⟨g2, ?_, by rw [List.length_cons, Nat.add_comm rest.length 1, ← Nat.add_assoc]; exact d2, by rw [d3, b3], by rw [d4, b4], ?_⟩
    · rw [List.length_cons, List.range'_succ, List.foldlM_cons, b1]
      exact d1
    · rw [d5, b5]
      rfl

theorem range_succ (n : Nat) : (List.range n).map (· + 1) = List.range' 1 n := by
  rw [List.range'_eq_map_range]
  apply List.map_congr_left
  intro a _
  omega

/-- A build gives a graph whose edges are right. -/
theorem build_ok {o : Order} (ho : o.Ok) {p : Params} (between : Nat → Nat → Int) {levels : List Nat} (hm : 0 < p.m) (hl : 0 < p.maxLevel)
    (h : ∀ c ∈ levels, 0 < c ∧ c ≤ p.maxLevel) :
    ∃ g, o.build p between levels = some g ∧ Wf g ∧ g.params = p ∧ shape g = p.maxLevel :: levels ∧
      g.levelCount = levels.foldl (fun c n => addCount n c) (start p levels).levelCount := by
  obtain ⟨g, g1, g2, g3, g4, g5⟩ := inserts_ok ho between levels 1 (start_good p levels) hm (by decide) (by rw [start_shape]; rfl) (by rw [start_shape]; rfl) h
  refine ⟨g, by unfold Order.build; rw [range_succ]; exact g1, ⟨by rw [g3]; exact hl, ?_, ?_⟩, g3, by rw [g4, start_shape], g5⟩
  · intro l hlt
    rw [ranked_iff, g4, start_shape]
    rw [g3] at hlt
    exact ⟨_, rfl, hlt⟩
  · intro i l ns hr
    obtain ⟨h1, h2⟩ := g2.under i l ns hr
    exact ⟨h1, fun x hx => (h2 x hx).2⟩

end Verif.Hnsw
