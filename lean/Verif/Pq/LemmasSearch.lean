import Verif.Pq.LemmasPart
/-! # Searches of product-quantized partitions: lemmas -/
namespace Verif.Pq

/-- `res` are the `k` nearest of the candidates, pairs of distance and row id, in order of the distance; which ones of equal distance is not said. -/
def Nearest (cands : List (Int × Nat)) (k : Nat) (res : List (Int × Nat)) : Prop :=
  ∃ rest, (res ++ rest).Perm cands ∧ res.Pairwise (fun x y => x.1 ≤ y.1) ∧ res.length = min k cands.length ∧ ∀ x ∈ res, ∀ y ∈ rest, x.1 ≤ y.1

theorem nearest_take {cands Z : List (Int × Nat)} (k : Nat) (hp : Z.Perm cands) (hs : Z.Pairwise (fun x y => x.1 ≤ y.1)) : Nearest cands k (Z.take k) := by
  refine ⟨Z.drop k, by rw [List.take_append_drop]; exact hp, hs.sublist (List.take_sublist _ _), ?_, ?_⟩
  · rw [List.length_take, hp.length_eq]
  · have h := hs
    rw [← List.take_append_drop k Z] at h
    exact (List.pairwise_append.1 h).2.2

/-! ## Picking -/

theorem pick_eq {α : Type} {l : List α} (d : α) : ∀ {is : List Nat}, (∀ i ∈ is, i < l.length) → pick l is = some (is.map (fun i => l.getD i d))
  | [], _ => rfl
  | i :: is, h => by
    unfold pick
    have hi := h i List.mem_cons_self
    rw [pick_eq d (fun j hj => h j (List.mem_cons_of_mem _ hj)), List.getElem?_eq_getElem hi]
    simp [List.getD_eq_getElem?_getD, List.getElem?_eq_getElem hi]

theorem map_range_getD {α : Type} (l : List α) (d : α) : (List.range l.length).map (fun i => l.getD i d) = l := by
  apply List.ext_getElem?
  intro i
  by_cases hi : i < l.length
  · rw [List.getElem?_map, List.getElem?_range hi, List.getElem?_eq_getElem hi]
    simp [List.getD_eq_getElem?_getD, List.getElem?_eq_getElem hi]
  · rw [List.getElem?_eq_none (by simp; omega), List.getElem?_eq_none (by omega)]

/-- Distances and row ids in an order that is a permutation of all positions. -/
theorem pick_zip_perm {ds : List Int} {ids : List Nat} (hl : ds.length = ids.length) {o : List Nat} (ho : o.Perm (List.range ds.length)) :
    ∃ ds' ids', pick ds o = some ds' ∧ pick ids o = some ids' ∧ (ds'.zip ids').map Prod.fst = ds' ∧ (ds'.zip ids').Perm (ds.zip ids) := by
  have hlt : ∀ i ∈ o, i < ds.length := fun i hi => List.mem_range.1 (ho.mem_iff.1 hi)
  refine ⟨_, _, pick_eq 0 hlt, pick_eq 0 (fun i hi => by rw [← hl]; exact hlt i hi), List.map_fst_zip (by simp), ?_⟩
  have hz : (o.map (fun i => ds.getD i 0)).zip (o.map (fun i => ids.getD i 0)) = o.map (fun i => (ds.zip ids).getD i (0, 0)) := by
    rw [List.zip_map']
    apply List.map_congr_left
    intro i hi
    have h1 := hlt i hi
    have h2 : i < ids.length := by omega
    simp [List.getD_eq_getElem?_getD, List.getElem?_eq_getElem h1, List.getElem?_eq_getElem h2, List.getElem?_zip_eq_some]
    rw [List.getElem?_eq_getElem (by simp; omega)]
    simp
  rw [hz]
  have := ho.map (fun i => (ds.zip ids).getD i (0, 0))
  have h3 : (List.range ds.length).map (fun i => (ds.zip ids).getD i (0, 0)) = ds.zip ids := by
    have := map_range_getD (ds.zip ids) (0, 0)
    rw [List.length_zip, ← hl, Nat.min_self] at this
    exact this
  rw [h3] at this
  exact this

/-! ## Bounds -/

theorem filter_none_of_ge {lo hi : Option Int} {h : Int} (hh : hi = some h) {Z : List (Int × Nat)} (hz : ∀ z ∈ Z, h ≤ z.1) : Z.filter (fun z => inBounds lo hi z.1) = [] := by
  rw [List.filter_eq_nil_iff]
  intro z hm
  have := hz z hm
  subst hh
  simp [inBounds]
  intro _
  omega

theorem collect_eq {lo hi : Option Int} {limit : Nat} : ∀ (Z acc : List (Int × Nat)), Z.Pairwise (fun x y => x.1 ≤ y.1) → acc.length < limit →
    collect lo hi limit Z acc = acc ++ (Z.filter (fun z => inBounds lo hi z.1)).take (limit - acc.length)
  | [], acc, _, _ => by simp [collect]
  | x :: Z, acc, hs, ha => by
    obtain ⟨hx, hs'⟩ := List.pairwise_cons.1 hs
    unfold collect
    by_cases h1 : lo.any (fun l => decide (x.1 < l)) = true
    · rw [if_pos h1, collect_eq Z acc hs' ha]
      have : inBounds lo hi x.1 = false := by
        cases lo with
        | none => simp at h1
        | some l => simp [inBounds] at h1 ⊢; intro h; omega
      rw [List.filter_cons, this]
      rfl
    · rw [if_neg h1]
      by_cases h2 : hi.any (fun h => decide (h ≤ x.1)) = true
      · rw [if_pos h2]
        cases hi with
        | none => simp at h2
        | some h =>
          simp at h2
          rw [filter_none_of_ge rfl]
          · simp
          · intro z hz
            rcases List.mem_cons.1 hz with rfl | hz
            · exact h2
            · have := hx z hz; omega
      · rw [if_neg h2]
        have hb : inBounds lo hi x.1 = true := by
          unfold inBounds
          cases lo <;> cases hi <;> simp at h1 h2 ⊢ <;> omega
        rw [List.filter_cons, hb]
        simp only [if_true]
        by_cases h3 : limit ≤ (acc ++ [x]).length
        · rw [if_pos h3]
          rw [List.length_append, List.length_singleton] at h3
          rw [show limit - acc.length = 1 by omega]
          simp
        · rw [if_neg h3, collect_eq Z (acc ++ [x]) hs' (by omega)]
          rw [List.length_append, List.length_singleton] at h3 ⊢
          rw [show limit - acc.length = (limit - (acc.length + 1)) + 1 by omega, List.take_succ_cons, List.append_assoc]
          rfl

theorem filter_free (Z : List (Int × Nat)) : Z.filter (fun z => inBounds none none z.1) = Z := by
  rw [List.filter_eq_self]
  intro z _
  rfl

/-! ## Filtering a page -/

/-- Rows that a filter selects. -/
def chosen (sel : Option (Nat → Bool)) (rows : List (Nat × List Int)) : List (Nat × List Int) :=
  match sel with
  | none => rows
  | some f => rows.filter (fun r => f r.1)

theorem chosen_sized {q : Quantizer} {sel : Option (Nat → Bool)} {rows : List (Nat × List Int)} (h : Sized q rows) : Sized q (chosen sel rows) := by
  intro r hr
  cases sel with
  | none => exact h r hr
  | some f => exact h r (List.mem_filter.1 hr).1

/-- Positions of selected ids pick what belongs to the selected rows. -/
theorem pick_selected {α : Type} (f : Nat → Bool) (g : Nat × List Int → α) : ∀ (rows : List (Nat × List Int)) (pre l : List α), l = pre ++ rows.map g →
    pick l (selectedFrom f pre.length (rows.map Prod.fst)) = some ((rows.filter (fun r => f r.1)).map g)
  | [], pre, l, _ => rfl
  | r :: rows, pre, l, h => by
    have ih := pick_selected f g rows (pre ++ [g r]) l (by rw [h]; simp)
    rw [List.length_append, List.length_singleton] at ih
    simp only [List.map_cons]
    unfold selectedFrom
    by_cases hf : f r.1 = true
    · rw [if_pos hf, List.filter_cons, if_pos hf]
      unfold pick
      rw [ih, show l[pre.length]? = some (g r) by rw [h]; simp]
      rfl
    · rw [if_neg hf, List.filter_cons, if_neg hf]
      exact ih

theorem pickAll_columns (f : Nat → Bool) (q : Quantizer) (rows : List (Nat × List Int)) : ∀ (is : List Nat),
    pickAll (selectedFrom f 0 (rows.map Prod.fst)) (is.map (fun s => (coded q rows).map (fun r => r.getD s default))) =
      some (is.map (fun s => (coded q (rows.filter (fun r => f r.1))).map (fun r => r.getD s default))).flatten
  | [] => rfl
  | s :: is => by
    simp only [List.map_cons, List.flatten_cons]
    unfold pickAll
    rw [pickAll_columns f q rows is]
    have := pick_selected f (fun r => (codeD q r.2).getD s default) rows [] ((coded q rows).map (fun r => r.getD s default)) (by unfold coded; rw [List.map_map]; rfl)
    rw [List.length_nil] at this
    rw [this]
    simp only
    congr 2
    unfold coded
    rw [List.map_map]
    rfl

theorem filterArrays_eq {q : Quantizer} (f : Nat → Bool) (rows : List (Nat × List Int)) :
    (pageOf q rows).filterArrays f = some ((pageOf q (chosen (some f) rows)).code, (pageOf q (chosen (some f) rows)).rowIds) := by
  unfold Page.filterArrays
  by_cases he : rows = []
  · subst he
    rfl
  · have hn : (pageOf q rows).rowIds ≠ [] := by unfold pageOf; simpa using he
    rw [if_neg hn]
    have hp : 0 < rows.length := List.length_pos_iff.2 he
    simp only [show (pageOf q rows).rowIds = rows.map Prod.fst from rfl, List.length_map]
    have h1 := pick_selected f Prod.fst rows [] (rows.map Prod.fst) rfl
    rw [List.length_nil] at h1
    rw [h1]
    have h2 : chunksExact rows.length (pageOf q rows).code = columns q.subs (coded q rows) :=
      chunksExact_flatten hp (fun x hx => by rw [columns_mem_length hx, coded_length])
    rw [h2]
    unfold columns
    rw [pickAll_columns]
    rfl

/-! ## Distances of rows -/

/-- The distance that is reported for a row. -/
def reported (q : Quantizer) (query : List Int) (r : Nat × List Int) : Int :=
  unit * (q.metric.dist query (reconstruct q (unpack q.bits (codeD q r.2))) + q.metric.extra q.subs)

/-- The rows that a filter selects, with their distances. -/
def candidates (q : Quantizer) (query : List Int) (sel : Option (Nat → Bool)) (rows : List (Nat × List Int)) : List (Int × Nat) :=
  (chosen sel rows).map (fun r => (reported q query r, r.1))

theorem storage_distanceAll {q : Quantizer} (hq : Valid q) (hb : q.bits = 8) (a : Arch) {rows : List (Nat × List Int)} (h : Sized q rows) {ids : List Nat} {query : List Int}
    (hl : query.length = q.dim) :
    Storage.distanceAll a ⟨q, (columns q.codeLen (coded q rows)).flatten, ids⟩ query = some (rows.map (reported q query)) := by
  rw [distanceAll_8 hq hb a hl (fun j c hc => coded_mem hq h (List.mem_of_getElem? hc))]
  unfold coded
  rw [List.map_map]
  rfl

theorem storage_distance {q : Quantizer} (hq : Valid q) {rows : List (Nat × List Int)} (h : Sized q rows) {ids : List Nat} {query : List Int}
    (hl : query.length = q.dim) {j : Nat} {r : Nat × List Int} (hj : rows[j]? = some r) :
    Storage.distance ⟨q, (columns q.codeLen (coded q rows)).flatten, ids⟩ query j = some (reported q query r) :=
  distance_spec hq hl (by unfold coded; rw [List.getElem?_map, hj]; rfl) (codeD_spec hq (h r (List.mem_of_getElem? hj)))

/-- `sort_to_indices`: an order of all positions in which the distances are sorted. -/
def Sorts (order : List Int → List Nat) : Prop :=
  ∀ ds, (order ds).Perm (List.range ds.length) ∧ ∀ r, pick ds (order ds) = some r → r.Pairwise (· ≤ ·)

theorem page_search {q : Quantizer} (hq : Valid q) (hb : q.bits = 8) (a : Arch) {rows : List (Nat × List Int)} (h : Sized q rows) {order : List Int → List Nat} (ho : Sorts order)
    {query : List Int} (hl : query.length = q.dim) (sel : Option (Nat → Bool)) {limit : Nat} {lo hi : Option Int} (hk : 0 < limit ∨ (lo = none ∧ hi = none)) :
    ∃ res, (pageOf q rows).search a order query sel limit lo hi = some res ∧
      Nearest ((candidates q query sel rows).filter (fun z => inBounds lo hi z.1)) limit res := by
  have hf : (pageOf q rows).arrays sel =
      some ((pageOf q (chosen sel rows)).code, (pageOf q (chosen sel rows)).rowIds) := by
    cases sel with
    | none => rfl
    | some f => exact filterArrays_eq f rows
  have hcs := chosen_sized (sel := sel) h
  have hd := storage_distanceAll hq hb a hcs (ids := []) hl
  unfold Storage.distanceAll at hd
  simp only at hd
  rw [codeLen_8 hb] at hd
  unfold Page.search
  rw [hf]
  simp only [show (pageOf q rows).q = q from rfl]
  cases ht : table q.metric q.bits q.codebook q.subs query with
  | none => rw [ht] at hd; simp at hd
  | some t =>
    rw [ht] at hd
    simp only at hd ⊢
    have hd' : computeDistances a t q.bits q.subs (pageOf q (chosen sel rows)).code = some ((chosen sel rows).map (reported q query)) := hd
    rw [hd']
    simp only
    generalize hds : (chosen sel rows).map (reported q query) = ds
    have hz : ds.zip ((chosen sel rows).map Prod.fst) = candidates q query sel rows := by
      rw [← hds, List.zip_map']
      rfl
    obtain ⟨o1, o2⟩ := ho ds
    obtain ⟨ds', ids', p1, p2, p3, p4⟩ := pick_zip_perm (ids := (chosen sel rows).map Prod.fst) (by rw [← hds]; simp) o1
    have hids : (pageOf q (chosen sel rows)).rowIds = (chosen sel rows).map Prod.fst := rfl
    rw [hids, p1, p2]
    simp only
    rw [hz] at p4
    have hsort : (ds'.zip ids').Pairwise (fun x y => x.1 ≤ y.1) := by
      have := o2 ds' p1
      rw [← p3] at this
      exact List.pairwise_map.1 this
    by_cases hn : lo = none ∧ hi = none
    · rw [if_pos hn, hn.1, hn.2, filter_free]
      exact ⟨_, rfl, nearest_take _ p4 hsort⟩
    · rw [if_neg hn]
      have hk' : 0 < limit := by
        rcases hk with h | h
        · exact h
        · exact absurd h hn
      rw [collect_eq _ [] hsort (by simpa using hk')]
      simp only [List.nil_append, List.length_nil, Nat.sub_zero]
      exact ⟨_, rfl, nearest_take _ (p4.filter _) (hsort.filter _)⟩

/-! ## The third format -/

theorem selected_eq {q : Quantizer} (hq : Valid q) {all : List (Nat × List Int)} (h : Sized q all) {ids : List Nat} {query : List Int} (hl : query.length = q.dim) (f : Nat → Bool) :
    ∀ (rows pre : List (Nat × List Int)), all = pre ++ rows →
      ∃ ns, Storage.selected ⟨q, (columns q.codeLen (coded q all)).flatten, ids⟩ query f pre.length (rows.map Prod.fst) = some ns ∧ (∀ n ∈ ns, n.id < all.length) ∧
        ns.map (fun n => (n.dist, (all.map Prod.fst).getD n.id 0)) = (rows.filter (fun r => f r.1)).map (fun r => (reported q query r, r.1))
  | [], pre, _ => ⟨[], rfl, by simp, rfl⟩
  | r :: rows, pre, he => by
    obtain ⟨ns, n1, n2, n3⟩ := selected_eq hq h (ids := ids) hl f rows (pre ++ [r]) (by rw [he]; simp)
    rw [List.length_append, List.length_singleton] at n1
    have hj : all[pre.length]? = some r := by rw [he]; simp
    have hd := storage_distance hq h (ids := ids) hl hj
    simp only [List.map_cons]
    unfold Storage.selected
    by_cases hf : f r.1 = true
    · rw [if_pos hf, hd, n1, List.filter_cons, if_pos hf]
      refine ⟨_, rfl, ?_, ?_⟩
      · intro n hn
        rcases List.mem_cons.1 hn with rfl | hn
        · rw [he]; simp
        · exact n2 n hn
      · simp only [List.map_cons]
        rw [n3]
        simp [List.getD_eq_getElem?_getD, hj]
    · rw [if_neg hf, n1, List.filter_cons, if_neg hf]
      exact ⟨ns, rfl, n2, n3⟩

/-- `sort_unstable` of nodes, which are compared by their distances. -/
def SortsNodes (sort : List Node → List Node) : Prop := ∀ ns, (sort ns).Perm ns ∧ (sort ns).Pairwise (fun x y => x.dist ≤ y.dist)

theorem zip_nodes {q : Quantizer} {query : List Int} : ∀ (rows pre all : List (Nat × List Int)), all = pre ++ rows →
    (((rows.map (reported q query)).zip (List.range' pre.length rows.length)).map (fun p => (⟨p.2, p.1⟩ : Node))).map (fun n => (n.dist, (all.map Prod.fst).getD n.id 0)) =
      rows.map (fun r => (reported q query r, r.1))
  | [], _, _, _ => rfl
  | r :: rows, pre, all, he => by
    have ih := zip_nodes (q := q) (query := query) rows (pre ++ [r]) all (by rw [he]; simp)
    rw [List.length_append, List.length_singleton] at ih
    simp only [List.map_cons, List.length_cons, List.range'_succ, List.zip_cons_cons]
    rw [ih, he]
    simp [List.getD_eq_getElem?_getD]

theorem storage_nodes {q : Quantizer} (hq : Valid q) (a : Arch) {rows : List (Nat × List Int)} (h : Sized q rows) {query : List Int} (hl : query.length = q.dim)
    (sel : Option (Nat → Bool)) (hb : q.bits = 8 ∨ sel.isSome) :
    ∃ ns, Storage.nodes a ⟨q, (columns q.codeLen (coded q rows)).flatten, rows.map Prod.fst⟩ query sel = some ns ∧ (∀ n ∈ ns, n.id < rows.length) ∧
      ns.map (fun n => (n.dist, (rows.map Prod.fst).getD n.id 0)) = candidates q query sel rows := by
  cases sel with
  | none =>
    have hb : q.bits = 8 := by rcases hb with h | h; exact h; simp at h
    unfold Storage.nodes
    rw [storage_distanceAll hq hb a h hl]
    refine ⟨_, rfl, ?_, ?_⟩
    · intro n hn
      obtain ⟨p, hp, rfl⟩ := List.mem_map.1 hn
      have := List.mem_range.1 (List.of_mem_zip hp).2
      simpa using this
    · have := zip_nodes (q := q) (query := query) rows [] rows rfl
      rw [List.length_nil] at this
      rw [List.length_map, List.range_eq_range']
      exact this
  | some f => exact selected_eq hq h hl f rows [] rfl

theorem storage_search {q : Quantizer} (hq : Valid q) (a : Arch) {rows : List (Nat × List Int)} (h : Sized q rows) {sort : List Node → List Node} (ho : SortsNodes sort)
    {query : List Int} (hl : query.length = q.dim) (sel : Option (Nat → Bool)) (hb : q.bits = 8 ∨ sel.isSome) (k : Nat) (lo hi : Option Int) :
    ∃ res, Storage.search a ⟨q, (columns q.codeLen (coded q rows)).flatten, rows.map Prod.fst⟩ sort query sel k lo hi = some res ∧
      Nearest ((candidates q query sel rows).filter (fun z => inBounds lo hi z.1)) k res := by
  obtain ⟨ns, n1, n2, n3⟩ := storage_nodes hq a h hl sel hb
  unfold Storage.search
  rw [n1]
  simp only
  obtain ⟨s1, s2⟩ := ho (ns.filter (fun n => inBounds lo hi n.dist))
  generalize hS : sort (ns.filter (fun n => inBounds lo hi n.dist)) = S at s1 s2
  have hlt : ∀ n ∈ S, n.id < (rows.map Prod.fst).length := by
    intro n hn
    rw [List.length_map]
    exact n2 n (List.mem_filter.1 (s1.mem_iff.1 hn)).1
  have hp : pick (rows.map Prod.fst) ((S.take k).map Node.id) = some (((S.take k).map Node.id).map (fun i => (rows.map Prod.fst).getD i 0)) := by
    apply pick_eq
    intro i hi
    obtain ⟨n, hn, rfl⟩ := List.mem_map.1 hi
    exact hlt n (List.mem_of_mem_take hn)
  rw [hp]
  refine ⟨_, rfl, ?_⟩
  have hz : ((S.take k).map Node.dist).zip (((S.take k).map Node.id).map (fun i => (rows.map Prod.fst).getD i 0)) =
      (S.map (fun n => (n.dist, (rows.map Prod.fst).getD n.id 0))).take k := by
    rw [List.map_map, List.zip_map', List.map_take]
    rfl
  show Nearest _ _ (((S.take k).map Node.dist).zip (((S.take k).map Node.id).map (fun i => (rows.map Prod.fst).getD i 0)))
  rw [hz]
  apply nearest_take
  · have := s1.map (fun n => (n.dist, (rows.map Prod.fst).getD n.id 0))
    refine this.trans ?_
    rw [← n3, List.filter_map]
    exact List.Perm.refl _
  · exact List.pairwise_map.2 s2

end Verif.Pq
