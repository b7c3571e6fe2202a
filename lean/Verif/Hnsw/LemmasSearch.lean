import Verif.Hnsw.Model
import Verif.Pq.LemmasSearch
import Verif.Deletion.Lemmas
/-! # Searches of graphs: lemmas -/
namespace Verif.Hnsw
open Verif.Pq (Node)

/-- The heaps give a largest and a smallest node, whichever of those with equal distance, and sorts sort. -/
structure Order.Ok (o : Order) : Prop where
  popMax_nil : o.popMax [] = none
  popMax : ∀ l, l ≠ [] → ∃ m r, o.popMax l = some (m, r) ∧ (m :: r).Perm l ∧ ∀ x ∈ r, x.dist ≤ m.dist
  popMin_nil : o.popMin [] = none
  popMin : ∀ l, l ≠ [] → ∃ m r, o.popMin l = some (m, r) ∧ (m :: r).Perm l ∧ ∀ x ∈ r, m.dist ≤ x.dist
  sort_perm : ∀ l, (o.sort l).Perm l
  sort_sorted : ∀ l, (o.sort l).Pairwise (fun x y => x.dist ≤ y.dist)

/-- The number of nodes that were not visited. -/
def unvisited (n : Nat) (visited : List Nat) : Nat := ((List.range n).filter (fun i => !visited.contains i)).length

theorem unvisited_cons {n id : Nat} {visited : List Nat} (h1 : id < n) (h2 : id ∉ visited) : unvisited n (id :: visited) + 1 ≤ unvisited n visited := by
  have hn : (id :: (List.range n).filter (fun i => !(id :: visited).contains i)).Nodup := by
    refine List.nodup_cons.2 ⟨by simp, List.nodup_range.filter _⟩
  have := Verif.Deletion.nodup_length_le hn (t := (List.range n).filter (fun i => !visited.contains i)) (by
    intro x hx
    rcases List.mem_cons.1 hx with rfl | hx
    · simp [h1, h2]
    · simp only [List.mem_filter, List.mem_range, Bool.not_eq_true', List.contains_eq_mem, decide_eq_false_iff_not] at hx ⊢
      exact ⟨hx.1, fun hm => hx.2 (List.mem_cons_of_mem _ hm)⟩)
  simpa [unvisited] using this

theorem unvisited_append {n : Nat} : ∀ {ids visited : List Nat}, ids.Nodup → (∀ i ∈ ids, i < n ∧ i ∉ visited) → unvisited n (ids.reverse ++ visited) + ids.length ≤ unvisited n visited
  | [], visited, _, _ => by simp
  | id :: ids, visited, hn, h => by
    obtain ⟨hn1, hn2⟩ := List.nodup_cons.1 hn
    obtain ⟨h1, h2⟩ := h id List.mem_cons_self
    have ih := unvisited_append (visited := id :: visited) hn2 (by
      intro i hi
      refine ⟨(h i (List.mem_cons_of_mem _ hi)).1, ?_⟩
      intro hm
      rcases List.mem_cons.1 hm with rfl | hm
      · exact hn1 hi
      · exact (h i (List.mem_cons_of_mem _ hi)).2 hm)
    have := unvisited_cons h1 h2
    simp only [List.reverse_cons, List.append_assoc, List.singleton_append, List.length_cons]
    omega

/-! ## Greedy search -/

theorem greedyPass_go (dist : Nat → Int) : ∀ (ns : List Nat) (acc : Int × Option Nat),
    ns.foldl (fun acc n => if dist n < acc.1 then (dist n, some n) else acc) acc = acc ∨
      ∃ n ∈ ns, ns.foldl (fun acc n => if dist n < acc.1 then (dist n, some n) else acc) acc = (dist n, some n) ∧ dist n < acc.1
  | [], _ => Or.inl rfl
  | n :: ns, acc => by
    simp only [List.foldl_cons]
    by_cases h : dist n < acc.1
    · rw [if_pos h]
      right
      rcases greedyPass_go dist ns (dist n, some n) with h2 | ⟨m, hm, h2, h3⟩
      · exact ⟨n, List.mem_cons_self, h2, h⟩
      · exact ⟨m, List.mem_cons_of_mem _ hm, h2, by simp only at h3; omega⟩
    · rw [if_neg h]
      rcases greedyPass_go dist ns acc with h2 | ⟨m, hm, h2, h3⟩
      · exact Or.inl h2
      · exact Or.inr ⟨m, List.mem_cons_of_mem _ hm, h2, h3⟩

/-- The number of nodes that are closer. -/
def closer (n : Nat) (dist : Nat → Int) (d : Int) : Nat := ((List.range n).filter (fun i => decide (dist i < d))).length

theorem closer_lt {n : Nat} {dist : Nat → Int} {d : Int} {i : Nat} (hi : i < n) (h : dist i < d) : closer n dist (dist i) + 1 ≤ closer n dist d := by
  have hn : (i :: (List.range n).filter (fun j => decide (dist j < dist i))).Nodup := by
    refine List.nodup_cons.2 ⟨by simp, List.nodup_range.filter _⟩
  have := Verif.Deletion.nodup_length_le hn (t := (List.range n).filter (fun j => decide (dist j < d))) (by
    intro x hx
    rcases List.mem_cons.1 hx with rfl | hx
    · simp [hi, h]
    · simp only [List.mem_filter, List.mem_range, decide_eq_true_eq] at hx ⊢
      exact ⟨hx.1, by omega⟩)
  simpa [closer] using this

theorem closer_le (n : Nat) (dist : Nat → Int) (d : Int) : closer n dist d ≤ n := by
  have := List.length_filter_le (fun i => decide (dist i < d)) (List.range n)
  simpa [closer] using this

/-- A set of nodes that neighbors do not leave. -/
structure Links (n : Nat) (nbrs : Nat → Option (List Nat)) (S : Nat → Prop) : Prop where
  lt : ∀ i, S i → i < n
  next : ∀ i, S i → ∃ ns, nbrs i = some ns ∧ ns.Nodup ∧ ∀ x ∈ ns, S x

theorem greedy_ok {n : Nat} {nbrs : Nat → Option (List Nat)} {S : Nat → Prop} (hS : Links n nbrs S) (dist : Nat → Int) :
    ∀ (rounds : Nat) (cur : Node), S cur.id → cur.dist = dist cur.id → closer n dist cur.dist < rounds →
      ∃ r, greedy nbrs dist rounds cur = some r ∧ S r.id ∧ r.dist = dist r.id ∧ r.dist ≤ cur.dist
  | 0, _, _, _, h => by omega
  | rounds + 1, cur, h1, h2, h3 => by
    obtain ⟨ns, hn, _, hns⟩ := hS.next cur.id h1
    unfold greedy
    rw [hn]
    simp only
    rcases greedyPass_go dist ns (cur.dist, none) with h | ⟨m, hm, h, hlt⟩
    · rw [show greedyPass dist cur.dist ns = (cur.dist, none) from h]
      exact ⟨_, rfl, h1, h2, Int.le_refl _⟩
    · rw [show greedyPass dist cur.dist ns = (dist m, some m) from h]
      simp only
      have hc := closer_lt (hS.lt m (hns m hm)) (d := cur.dist) hlt
      obtain ⟨r, r1, r2, r3, r4⟩ := greedy_ok hS dist rounds ⟨m, dist m⟩ (hns m hm) rfl (by simp only; omega)
      refine ⟨r, r1, r2, r3, ?_⟩
      simp only at r4 hlt
      omega

/-! ## Beam search -/

/-- What holds of the state of a beam search. -/
structure BInv (S : Nat → Prop) (dist : Nat → Int) (bitset : Option (List Nat)) (ef : Nat) (s : Beam) : Prop where
  visited : ∀ i ∈ s.visited, S i
  cands : ∀ c ∈ s.candidates, c.dist = dist c.id ∧ c.id ∈ s.visited
  results : ∀ c ∈ s.results, c.dist = dist c.id ∧ c.id ∈ s.visited ∧ kept bitset c.id = true
  nodup : (s.results.map Node.id).Nodup
  most : s.results.length ≤ max ef 1
  some : ef = 0 → s.results ≠ []

theorem offer_ok {o : Order} (ho : o.Ok) {ef : Nat} {results : List Node} (h : ef = 0 → results ≠ []) (n : Node) :
    ∃ r, o.offer ef results n = some r ∧ results.length ≤ r.length ∧ r.length ≤ max results.length ef ∧
      (results.length < ef → r = n :: results) ∧ (∀ x ∈ r, x = n ∨ x ∈ results) ∧ ((((n :: results).map Node.id).Nodup) → (r.map Node.id).Nodup) := by
  have hk : ∀ x ∈ results, x = n ∨ x ∈ results := fun x hx => Or.inr hx
  have hd : ((n :: results).map Node.id).Nodup → (results.map Node.id).Nodup := fun h => (List.nodup_cons.1 h).2
  unfold Order.offer
  split
  · exact ⟨_, rfl, by simp, by simp only [List.length_cons]; omega, fun _ => rfl, fun x hx => List.mem_cons.1 hx, id⟩
  · rename_i h1
    split
    · rename_i h2
      have hne : results ≠ [] := by
        by_cases he : ef = 0
        · exact h he
        · intro hc
          subst hc
          simp only [List.length_nil] at h2
          omega
      obtain ⟨m, r, h3, h4, h5⟩ := ho.popMax results hne
      rw [h3]
      simp only
      split
      · have hsub : ∀ x ∈ r, x ∈ results := fun x hx => h4.mem_iff.1 (List.mem_cons_of_mem _ hx)
        refine ⟨_, rfl, ?_, ?_, fun hc => absurd hc h1, ?_, ?_⟩
        · have := h4.length_eq
          simp only [List.length_cons] at this ⊢
          omega
        · have := h4.length_eq
          simp only [List.length_cons] at this ⊢
          omega
        · intro x hx
          rcases List.mem_cons.1 hx with hx | hx
          · exact Or.inl hx
          · exact Or.inr (hsub x hx)
        · intro hn
          obtain ⟨hn1, hn2⟩ := List.nodup_cons.1 hn
          refine List.nodup_cons.2 ⟨?_, ?_⟩
          · intro hm
            obtain ⟨x, hx, he⟩ := List.mem_map.1 hm
            exact hn1 (List.mem_map.2 ⟨x, hsub x hx, he⟩)
          · exact (List.nodup_cons.1 (((h4.map Node.id).nodup_iff).2 hn2)).2
      · exact ⟨_, rfl, Nat.le_refl _, by omega, fun hc => absurd hc h1, hk, hd⟩
    · exact ⟨_, rfl, Nat.le_refl _, by omega, fun hc => absurd hc h1, hk, hd⟩

/-- One neighbor. -/
theorem process_ok {o : Order} (ho : o.Ok) {S : Nat → Prop} {dist : Nat → Int} {bitset : Option (List Nat)} {ef : Nat} (furthest : Option Int) {s : Beam}
    (h : BInv S dist bitset ef s) {id : Nat} (hid : S id) (hv : id ∉ s.visited) :
    ∃ s', o.process dist bitset ef furthest s id = some s' ∧ BInv S dist bitset ef s' ∧ s'.visited = id :: s.visited ∧ s'.candidates.length ≤ s.candidates.length + 1 ∧
      s.results.length ≤ s'.results.length ∧
      (s'.results.length < ef → s'.candidates = ⟨id, dist id⟩ :: s.candidates ∧ (kept bitset id = true → s'.results = ⟨id, dist id⟩ :: s.results) ∧
        (kept bitset id = false → s'.results = s.results)) := by
  have hvis : ∀ i ∈ id :: s.visited, S i := by
    intro i hi
    rcases List.mem_cons.1 hi with rfl | hi
    · exact hid
    · exact h.visited i hi
  have hc : ∀ c ∈ (⟨id, dist id⟩ : Node) :: s.candidates, c.dist = dist c.id ∧ c.id ∈ id :: s.visited := by
    intro c hc
    rcases List.mem_cons.1 hc with rfl | hc
    · exact ⟨rfl, List.mem_cons_self⟩
    · exact ⟨(h.cands c hc).1, List.mem_cons_of_mem _ (h.cands c hc).2⟩
  have hr : ∀ c ∈ s.results, c.dist = dist c.id ∧ c.id ∈ id :: s.visited ∧ kept bitset c.id = true := fun c hc =>
    ⟨(h.results c hc).1, List.mem_cons_of_mem _ (h.results c hc).2.1, (h.results c hc).2.2⟩
  unfold Order.process
  simp only
  split
  · rename_i hcond
    split
    · rename_i hk
      obtain ⟨r, r1, r2, r3, r4, r5, r6⟩ := offer_ok ho h.some ⟨id, dist id⟩
      rw [r1]
      refine ⟨_, rfl, ⟨hvis, hc, ?_, ?_, ?_, ?_⟩, rfl, by simp, r2, ?_⟩
      · intro c hcr
        rcases r5 c hcr with rfl | hcr
        · exact ⟨rfl, List.mem_cons_self, hk⟩
        · exact hr c hcr
      · apply r6
        refine List.nodup_cons.2 ⟨?_, h.nodup⟩
        intro hm
        obtain ⟨x, hx, he⟩ := List.mem_map.1 hm
        have := (h.results x hx).2.1
        rw [he] at this
        exact hv this
      · have := h.most
        simp only
        omega
      · intro he hcon
        have h0 := List.length_pos_iff.2 (h.some he)
        simp only at hcon
        rw [hcon] at r2
        simp only [List.length_nil] at r2
        omega
      · intro hlt
        simp only at hlt
        refine ⟨rfl, fun _ => r4 (by omega), fun hk' => ?_⟩
        rw [hk] at hk'
        cases hk'
    · rename_i hk
      refine ⟨_, rfl, ⟨hvis, hc, hr, h.nodup, h.most, h.some⟩, rfl, by simp, Nat.le_refl _, ?_⟩
      intro _
      refine ⟨rfl, fun hk' => absurd hk' hk, fun _ => rfl⟩
  · rename_i hcond
    refine ⟨_, rfl, ⟨hvis, fun c hcc => hc c (List.mem_cons_of_mem _ hcc), hr, h.nodup, h.most, h.some⟩, rfl, by simp, Nat.le_refl _, ?_⟩
    intro hlt
    simp only at hlt
    exfalso
    apply hcond
    rw [Bool.or_eq_true]
    right
    exact decide_eq_true hlt

/-- All neighbors of a round. -/
theorem processAll_ok {o : Order} (ho : o.Ok) {S : Nat → Prop} {dist : Nat → Int} {bitset : Option (List Nat)} {ef : Nat} (furthest : Option Int) :
    ∀ (ids : List Nat) {s : Beam}, BInv S dist bitset ef s → ids.Nodup → (∀ i ∈ ids, S i ∧ i ∉ s.visited) →
    ∃ s', o.processAll dist bitset ef furthest s ids = some s' ∧ BInv S dist bitset ef s' ∧ s'.visited = ids.reverse ++ s.visited ∧
      s'.candidates.length ≤ s.candidates.length + ids.length ∧ s.results.length ≤ s'.results.length ∧
      (s'.results.length < ef → s'.candidates.map Node.id = ids.reverse ++ s.candidates.map Node.id ∧
        (∀ i ∈ ids, kept bitset i = true → i ∈ s'.results.map Node.id) ∧ ∀ i ∈ s.results.map Node.id, i ∈ s'.results.map Node.id)
  | [], s, h, _, _ => ⟨s, rfl, h, rfl, by simp, Nat.le_refl _, fun _ => ⟨rfl, by simp, fun i hi => hi⟩⟩
  | id :: ids, s, h, hn, hi => by
    obtain ⟨hn1, hn2⟩ := List.nodup_cons.1 hn
    obtain ⟨hi1, hi2⟩ := hi id List.mem_cons_self
    obtain ⟨s1, p1, p2, p3, p4, p5, p6⟩ := process_ok ho furthest h hi1 hi2
    obtain ⟨s2, q1, q2, q3, q4, q5, q6⟩ := processAll_ok ho furthest ids p2 hn2 (by
      intro i hii
      refine ⟨(hi i (List.mem_cons_of_mem _ hii)).1, ?_⟩
      rw [p3]
      intro hm
      rcases List.mem_cons.1 hm with rfl | hm
      · exact hn1 hii
      · exact (hi i (List.mem_cons_of_mem _ hii)).2 hm)
    refine ⟨s2, ?_, q2, ?_, ?_, by omega, ?_⟩
    · unfold Order.processAll
      rw [p1]
      exact q1
    · rw [q3, p3]; simp
    · simp only [List.length_cons]; omega
    · intro hlt
      obtain ⟨a1, a2, a3⟩ := q6 hlt
      obtain ⟨b1, b2, b3⟩ := p6 (by omega)
      have hin : ∀ i ∈ s.results.map Node.id, i ∈ s1.results.map Node.id := by
        intro i him
        cases hk : kept bitset id with
        | true => rw [b2 hk]; exact List.mem_cons_of_mem _ him
        | false => rw [b3 hk]; exact him
      refine ⟨?_, ?_, fun i him => a3 i (hin i him)⟩
      · rw [a1, b1]; simp
      · intro i hii hk
        rcases List.mem_cons.1 hii with rfl | hii
        · apply a3
          rw [b2 hk]
          exact List.mem_cons_self
        · exact a2 i hii hk

/-- As long as fewer than `ef` nodes were found: visited nodes that may be returned were found, and the neighbors of visited nodes were visited or the node is to be done. -/
def Full (nbrs : Nat → Option (List Nat)) (bitset : Option (List Nat)) (ef : Nat) (s : Beam) : Prop :=
  s.results.length < ef → (∀ v ∈ s.visited, kept bitset v = true → v ∈ s.results.map Node.id) ∧
    ∀ v ∈ s.visited, v ∈ s.candidates.map Node.id ∨ ∀ ns, nbrs v = some ns → ∀ x ∈ ns, x ∈ s.visited

theorem beamLoop_ok {o : Order} (ho : o.Ok) {n : Nat} {nbrs : Nat → Option (List Nat)} {S : Nat → Prop} (hS : Links n nbrs S) (dist : Nat → Int)
    (bitset : Option (List Nat)) (ef : Nat) : ∀ (rounds : Nat) (s : Beam), BInv S dist bitset ef s → Full nbrs bitset ef s →
    s.candidates.length + unvisited n s.visited < rounds →
    ∃ s', o.beamLoop nbrs dist bitset ef rounds s = some s' ∧ BInv S dist bitset ef s' ∧ s.results.length ≤ s'.results.length ∧ (∀ v ∈ s.visited, v ∈ s'.visited) ∧
      (s'.results.length < ef → (∀ v ∈ s'.visited, kept bitset v = true → v ∈ s'.results.map Node.id) ∧ ∀ v ∈ s'.visited, ∀ ns, nbrs v = some ns → ∀ x ∈ ns, x ∈ s'.visited)
  | 0, _, _, _, h => by omega
  | rounds + 1, s, h, hf, hr => by
    unfold Order.beamLoop
    by_cases hc : s.candidates = []
    · rw [hc, ho.popMin_nil]
      refine ⟨s, rfl, h, Nat.le_refl _, fun v hv => hv, ?_⟩
      intro hlt
      obtain ⟨f1, f2⟩ := hf hlt
      refine ⟨f1, fun v hv => ?_⟩
      rcases f2 v hv with hm | hm
      · rw [hc] at hm; simp at hm
      · exact hm
    · obtain ⟨cur, rest, h1, h2, _⟩ := ho.popMin _ hc
      rw [h1]
      simp only
      split
      · rename_i hb
        refine ⟨s, rfl, h, Nat.le_refl _, fun v hv => hv, ?_⟩
        intro hlt
        exfalso
        rw [Bool.and_eq_true] at hb
        have := of_decide_eq_true hb.2
        omega
      · have hcur : cur ∈ s.candidates := h2.mem_iff.1 List.mem_cons_self
        obtain ⟨c1, c2⟩ := h.cands cur hcur
        obtain ⟨ns, n1, n2, n3⟩ := hS.next cur.id (h.visited _ c2)
        rw [n1]
        simp only
        have hI : BInv S dist bitset ef ⟨rest, s.results, s.visited⟩ :=
          ⟨h.visited, fun c hcc => h.cands c (h2.mem_iff.1 (List.mem_cons_of_mem _ hcc)), h.results, h.nodup, h.most, h.some⟩
        have hids : ∀ i ∈ ns.filter (fun n => !s.visited.contains n), S i ∧ i ∉ s.visited := by
          intro i hi
          obtain ⟨hi1, hi2⟩ := List.mem_filter.1 hi
          refine ⟨n3 i hi1, ?_⟩
          simpa using hi2
        have hnd : (ns.filter (fun n => !s.visited.contains n)).Nodup := n2.filter _
        obtain ⟨s1, p1, p2, p3, p4, p5, p6⟩ := processAll_ok ho (o.furthest s.results) _ hI hnd hids
        rw [p1]
        simp only
        have hu := unvisited_append (n := n) hnd (visited := s.visited) (fun i hi => ⟨hS.lt i (hids i hi).1, (hids i hi).2⟩)
        have hl := h2.length_eq
        simp only [List.length_cons] at hl p3 p4
        have hF : Full nbrs bitset ef s1 := by
          intro hlt
          simp only at p5
          obtain ⟨f1, f2⟩ := hf (by omega)
          obtain ⟨g1, g2, g3⟩ := p6 hlt
          have hin : ∀ x ∈ ns, x ∈ s1.visited := by
            intro x hx
            rw [p3]
            by_cases hxv : x ∈ s.visited
            · exact List.mem_append_right _ hxv
            · exact List.mem_append_left _ (List.mem_reverse.2 (List.mem_filter.2 ⟨hx, by simpa using hxv⟩))
          refine ⟨?_, ?_⟩
          · intro v hv hk
            rw [p3] at hv
            rcases List.mem_append.1 hv with hv | hv
            · exact g2 v (List.mem_reverse.1 hv) hk
            · exact g3 v (f1 v hv hk)
          · intro v hv
            rw [p3] at hv
            rcases List.mem_append.1 hv with hv | hv
            · left
              rw [g1]
              exact List.mem_append_left _ hv
            · by_cases hvc : v = cur.id
              · subst hvc
                right
                intro ns' hns'
                rw [n1] at hns'
                obtain rfl := Option.some.inj hns'
                exact hin
              · rcases f2 v hv with hm | hm
                · left
                  rw [g1]
                  apply List.mem_append_right
                  have := (h2.map Node.id).mem_iff.2 hm
                  rcases List.mem_cons.1 this with he | he
                  · exact absurd he hvc
                  · exact he
                · right
                  intro ns' hns' x hx
                  rw [p3]
                  exact List.mem_append_right _ (hm ns' hns' x hx)
        obtain ⟨s2, q1, q2, q3, q4, q5⟩ := beamLoop_ok ho hS dist bitset ef rounds s1 p2 hF (by rw [p3]; omega)
        refine ⟨s2, q1, q2, ?_, ?_, q5⟩
        · simp only at p5; omega
        · intro v hv
          apply q4
          rw [p3]
          exact List.mem_append_right _ hv

/-- Reachable by neighbors. -/
inductive Reach (nbrs : Nat → Option (List Nat)) (a : Nat) : Nat → Prop
  | refl : Reach nbrs a a
  | step {b c : Nat} {ns : List Nat} : Reach nbrs a b → nbrs b = some ns → c ∈ ns → Reach nbrs a c

theorem beam_ok {o : Order} (ho : o.Ok) {n : Nat} {nbrs : Nat → Option (List Nat)} {S : Nat → Prop} (hS : Links n nbrs S) (dist : Nat → Int)
    (bitset : Option (List Nat)) (ef : Nat) (hef : ef = 0 → bitset = none) {ep : Node} (hep : S ep.id) (hd : ep.dist = dist ep.id) :
    ∃ r, o.beam nbrs dist bitset ef (n + 1) ep = some r ∧ r.Pairwise (fun x y => x.dist ≤ y.dist) ∧ (r.map Node.id).Nodup ∧ r.length ≤ max ef 1 ∧
      (∀ x ∈ r, S x.id ∧ x.dist = dist x.id ∧ kept bitset x.id = true) ∧ (kept bitset ep.id = true → r ≠ []) ∧
      (r.length < ef → ∀ v, Reach nbrs ep.id v → kept bitset v = true → v ∈ r.map Node.id) := by
  have h0 : BInv S dist bitset ef ⟨[ep], if kept bitset ep.id then [ep] else [], [ep.id]⟩ := by
    refine ⟨?_, ?_, ?_, ?_, ?_, ?_⟩
    · intro i hi
      simp only [List.mem_singleton] at hi
      subst hi
      exact hep
    · intro c hc
      simp only [List.mem_singleton] at hc
      subst hc
      exact ⟨hd, List.mem_singleton.2 rfl⟩
    · intro c hc
      simp only at hc
      split at hc
      · rename_i hk
        simp only [List.mem_singleton] at hc
        subst hc
        exact ⟨hd, List.mem_singleton.2 rfl, hk⟩
      · simp at hc
    · simp only
      split <;> simp
    · simp only
      split
      · simp only [List.length_singleton]; omega
      · simp
    · intro he
      simp only
      rw [hef he]
      simp [kept]
  have hF : Full nbrs bitset ef ⟨[ep], if kept bitset ep.id then [ep] else [], [ep.id]⟩ := by
    intro _
    refine ⟨?_, ?_⟩
    · intro v hv hk
      simp only [List.mem_singleton] at hv
      subst hv
      simp only [hk, if_true]
      simp
    · intro v hv
      left
      simp only [List.mem_singleton] at hv
      subst hv
      simp
  have hu : unvisited n [ep.id] + 1 ≤ n := by
    have h1 := unvisited_cons (visited := []) (hS.lt _ hep) (by simp)
    have h2 := List.length_filter_le (fun i => !([] : List Nat).contains i) (List.range n)
    rw [List.length_range] at h2
    have h3 : unvisited n [] ≤ n := h2
    omega
  obtain ⟨s, s1, s2, s3, s4, s5⟩ := beamLoop_ok ho hS dist bitset ef (n + 1) _ h0 hF (by simp only [List.length_singleton]; omega)
  have hp := ho.sort_perm s.results
  refine ⟨o.sort s.results, ?_, ho.sort_sorted _, ?_, ?_, ?_, ?_, ?_⟩
  · unfold Order.beam
    rw [s1]
    rfl
  · exact ((hp.map Node.id).nodup_iff).2 s2.nodup
  · rw [hp.length_eq]; exact s2.most
  · intro x hx
    obtain ⟨r1, r2, r3⟩ := s2.results x (hp.mem_iff.1 hx)
    exact ⟨s2.visited _ r2, r1, r3⟩
  · intro hk hn
    have := hp.length_eq
    rw [hn] at this
    simp only [hk, if_true, List.length_singleton] at s3
    simp only [List.length_nil] at this
    omega
  · intro hlt v hv hk
    rw [hp.length_eq] at hlt
    obtain ⟨t1, t2⟩ := s5 hlt
    have hvis : v ∈ s.visited := by
      clear hk
      induction hv with
      | refl => exact s4 _ (by simp)
      | step _ h2 h3 ih => exact t2 _ ih _ h2 _ h3
    exact (hp.map Node.id).mem_iff.2 (t1 v hvis hk)

end Verif.Hnsw
