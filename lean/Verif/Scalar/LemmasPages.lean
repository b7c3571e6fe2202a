import Verif.Scalar.LemmasBTree

/-! Helper lemmas for remapping and updating a btree index: the order of the pages. -/
namespace Verif.Scalar
open Verif
open Verif.RowSet (TreeMap)

variable {V : Type} [LinOrd V] [DecidableEq V]

/-! ### `dedup` -/

theorem dedup_append (l : List Nat) (h : l.Pairwise (· ≠ ·)) (t : List Nat) (ht : t.length ≤ 1) :
    (dedup (l ++ t) = l ++ t ∧ l.getLast? ≠ t.head?) ∨ dedup (l ++ t) = l := by
  induction l with
  | nil =>
    rcases t with _ | ⟨a, _ | ⟨b, t⟩⟩
    · exact Or.inr rfl
    · exact Or.inl ⟨rfl, by simp⟩
    · simp at ht
  | cons x l ih =>
    rw [List.pairwise_cons] at h
    cases l with
    | nil =>
      rcases t with _ | ⟨a, _ | ⟨b, t⟩⟩
      · exact Or.inr rfl
      · simp only [List.cons_append, List.nil_append, dedup]
        by_cases hxa : x = a
        · rw [if_pos hxa, hxa]; exact Or.inr rfl
        · rw [if_neg hxa]; exact Or.inl ⟨rfl, by simpa using hxa⟩
      · simp at ht
    | cons y l =>
      have hxy : x ≠ y := h.1 y (List.mem_cons_self ..)
      have hd : dedup (x :: y :: l ++ t) = x :: dedup (y :: l ++ t) := by
        simp only [List.cons_append, dedup]
        rw [if_neg hxy]
      rw [hd, List.getLast?_cons_cons]
      rcases ih h.2 with ⟨h1, h2⟩ | h1
      · rw [h1]; exact Or.inl ⟨rfl, h2⟩
      · rw [h1]; exact Or.inr rfl

theorem dedup_of_nodup (l : List Nat) (h : l.Pairwise (· ≠ ·)) : dedup l = l := by
  rcases dedup_append l h [] (by simp) with ⟨h1, _⟩ | h1 <;> simpa using h1

/-! ### Records of the tree, in order -/

theorem entry_append (k : Option V) (rs : List (PageRec V)) (t : List (Option V × List (PageRec V)))
    (hs : t.Pairwise (fun a b => lt a.1 b.1 = true)) (hle : ∀ e ∈ t, LinOrd.le e.1 k = true) :
    (entry k rs t).flatMap (·.2) = t.flatMap (·.2) ++ rs ∧
      (entry k rs t).Pairwise (fun a b => lt a.1 b.1 = true) ∧ ∀ e ∈ entry k rs t, LinOrd.le e.1 k = true := by
  induction t with
  | nil => simp [entry, le_refl]
  | cons x t ih =>
    rw [List.pairwise_cons] at hs
    have hx : ¬ lt k x.1 = true := by
      rw [not_lt_iff]; exact hle x (List.mem_cons_self ..)
    simp only [entry]
    rw [if_neg hx]
    split
    · rename_i hk
      have ht : t = [] := by
        cases t with
        | nil => rfl
        | cons y t =>
          exfalso
          have h1 := hs.1 y (List.mem_cons_self ..)
          have h2 := hle y (List.mem_cons_of_mem _ (List.mem_cons_self ..))
          rw [hk] at h1
          exact ((lt_iff _ _).1 h1) h2
      subst ht
      refine ⟨by simp, by simp, ?_⟩
      intro e he
      simp only [List.mem_singleton] at he
      subst he
      rw [hk]; exact le_refl _
    · rename_i hk
      obtain ⟨h1, h2, h3⟩ := ih hs.2 (fun e he => hle e (List.mem_cons_of_mem _ he))
      refine ⟨by simp [h1], ?_, ?_⟩
      · rw [List.pairwise_cons]
        refine ⟨?_, h2⟩
        intro e he
        rcases mem_entry_key he with h4 | ⟨e', h4, h5⟩
        · rw [h4]; exact lt_of_le_ne (hle x (List.mem_cons_self ..)) hk
        · rw [← h5]; exact hs.1 e' h4
      · intro e he
        rcases List.mem_cons.1 he with rfl | he
        · exact hle _ (List.mem_cons_self ..)
        · exact h3 e he

theorem entry_empty (k : Option V) (t : List (Option V × List (PageRec V))) :
    (entry k [] t).flatMap (·.2) = t.flatMap (·.2) := by
  induction t with
  | nil => simp [entry]
  | cons x t ih =>
    simp only [entry]
    split
    · simp
    · split
      · simp
      · simp [ih]

theorem stats_recs (stats : List (Stat V)) (t : List (Option V × List (PageRec V)))
    (hs : t.Pairwise (fun a b => lt a.1 b.1 = true))
    (hle : ∀ e ∈ t, ∀ s ∈ stats, LinOrd.le e.1 s.min = true)
    (hord : stats.Pairwise (fun a b => LinOrd.le a.min b.min = true)) (hmax : ∀ s ∈ stats, s.max ≠ none) :
    (stats.foldl addStat t).flatMap (·.2) = t.flatMap (·.2) ++ stats.map (fun s => ⟨s.max, s.page⟩) := by
  induction stats generalizing t with
  | nil => simp
  | cons s stats ih =>
    rw [List.pairwise_cons] at hord
    have hadd : addStat t s = entry s.min [⟨s.max, s.page⟩] t := by
      unfold addStat
      rw [if_neg (hmax s (List.mem_cons_self ..))]
    obtain ⟨h1, h2, h3⟩ := entry_append s.min [⟨s.max, s.page⟩] t hs
      (fun e he => hle e he s (List.mem_cons_self ..))
    rw [List.foldl_cons, hadd, ih _ h2 ?_ hord.2 (fun s' h => hmax s' (List.mem_cons_of_mem _ h)), h1]
    · simp
    · intro e he s' hs'
      exact LinOrd.trans _ _ _ (h3 e he) (hord.1 s' hs')

theorem load_recs (stats : List (Stat V)) (hord : stats.Pairwise (fun a b => LinOrd.le a.min b.min = true))
    (hmax : ∀ s ∈ stats, s.max ≠ none) :
    ((loadLookup stats).tree.flatMap (·.2)).map PageRec.page = stats.map (·.page) := by
  unfold loadLookup
  cases hl : stats.getLast? with
  | none =>
    rw [List.getLast?_eq_none_iff] at hl
    subst hl; rfl
  | some last =>
    show ((entry last.max [] (stats.foldl addStat [])).flatMap (·.2)).map PageRec.page = _
    rw [entry_empty, stats_recs stats [] List.Pairwise.nil (by intro e he; cases he) hord hmax]
    simp [Function.comp_def]

theorem pages_analyzeAll (n : Nat) (pages : List (List (Row V))) :
    (analyzeAll n pages).map (·.page) = List.range' n pages.length := by
  induction pages generalizing n with
  | nil => rfl
  | cons p pages ih => simp [analyzeAll, ih, analyze, List.range'_succ]

theorem ordered_stats (n : Nat) (pages : List (List (Row V))) (h : POrd pages)
    (hval : ∀ p ∈ pages, ∃ x i, (some x, i) ∈ p) :
    (analyzeAll n pages).Pairwise (fun a b => LinOrd.le a.min b.min = true) ∧
      ∀ s ∈ analyzeAll n pages, s.max ≠ none := by
  induction pages generalizing n with
  | nil => exact ⟨List.Pairwise.nil, by intro s hs; cases hs⟩
  | cons p pages ih =>
    unfold POrd at h
    rw [List.pairwise_cons] at h
    obtain ⟨h1, h2⟩ := ih (n + 1) h.2 (fun q hq => hval q (List.mem_cons_of_mem _ hq))
    obtain ⟨x, i, hx⟩ := hval p (List.mem_cons_self ..)
    obtain ⟨mn, hmn, _⟩ := minVal_spec (p.map (·.1)) x (List.mem_map.2 ⟨_, hx, rfl⟩)
    obtain ⟨mx, hmx, _⟩ := maxVal_spec (p.map (·.1)) x (List.mem_map.2 ⟨_, hx, rfl⟩)
    refine ⟨?_, ?_⟩
    · simp only [analyzeAll, List.pairwise_cons]
      refine ⟨?_, h1⟩
      intro s hs
      obtain ⟨k, q, hq, rfl⟩ := (mem_analyzeAll _ _ _).1 hs
      have hqm : q ∈ pages := List.mem_of_getElem? hq
      obtain ⟨y, j, hy⟩ := hval q (List.mem_cons_of_mem _ hqm)
      obtain ⟨mq, hmq, _⟩ := minVal_spec (q.map (·.1)) y (List.mem_map.2 ⟨_, hy, rfl⟩)
      simp only [analyze]
      rw [hmn, hmq]
      have a1 := minVal_mem _ _ hmn
      have a2 := minVal_mem _ _ hmq
      rw [List.mem_map] at a1 a2
      obtain ⟨⟨v1, i1⟩, b1, c1⟩ := a1
      obtain ⟨⟨v2, i2⟩, b2, c2⟩ := a2
      simp only at c1 c2
      subst c1; subst c2
      exact h.1 q hqm _ b1 _ b2
    · intro s hs
      simp only [analyzeAll, List.mem_cons] at hs
      rcases hs with rfl | hs
      · simp [analyze, hmx]
      · exact h2 s hs

omit [DecidableEq V] in
theorem value_later {pages : List (List (Row V))} (h : POrd pages) {p0 : List (Row V)} (h0 : pages[0]? = some p0)
    (hv : ∃ x i, (some x, i) ∈ p0) {k : Nat} {p : List (Row V)} (hk : pages[k]? = some p) (hpos : 0 < k) :
    ∀ r ∈ p, r.1 ≠ none := by
  obtain ⟨x, i, hx⟩ := hv
  intro r hr hn
  have := pOrd_get h h0 hk hpos _ hx _ hr
  rw [hn] at this
  cases this

theorem null_pages_zero {pages : List (List (Row V))} (h : POrd pages) {p0 : List (Row V)} (h0 : pages[0]? = some p0)
    (hv : ∃ x i, (some x, i) ∈ p0) :
    (loadLookup (analyzeAll 0 pages)).nullPages = [] ∨ (loadLookup (analyzeAll 0 pages)).nullPages = [0] := by
  cases pages with
  | nil => cases h0
  | cons p pages =>
    have hp0 : p = p0 := by simpa using h0
    subst hp0
    have hl : ∃ last, (analyzeAll 0 (p :: pages)).getLast? = some last := by
      cases hg : (analyzeAll 0 (p :: pages)).getLast? with
      | none => rw [List.getLast?_eq_none_iff] at hg; cases hg
      | some last => exact ⟨last, rfl⟩
    obtain ⟨last, hl⟩ := hl
    have hrest : (analyzeAll 1 pages).filter (fun s => decide (0 < s.nulls)) = [] := by
      rw [List.filter_eq_nil_iff]
      intro s hs
      obtain ⟨k, q, hq, rfl⟩ := (mem_analyzeAll _ _ _).1 hs
      have := value_later h rfl hv (k := k + 1) (p := q) (by simpa using hq) (by omega)
      have hz : q.filter (fun r => r.1 == none) = [] := by
        rw [List.filter_eq_nil_iff]
        intro r hr
        simpa using this r hr
      have hn : (analyze q (1 + k)).nulls = 0 := by simp only [analyze]; rw [hz]; rfl
      rw [hn]; simp
    unfold loadLookup
    rw [hl]
    show ((analyzeAll 0 (p :: pages)).filter (fun s => decide (0 < s.nulls))).map (·.page) = [] ∨
      ((analyzeAll 0 (p :: pages)).filter (fun s => decide (0 < s.nulls))).map (·.page) = [0]
    simp only [analyzeAll, List.filter_cons]
    rw [hrest]
    split
    · exact Or.inr rfl
    · exact Or.inl rfl

/-- The pages as `remap` and `update` read them: each one in order, then possibly the first one again. -/
theorem allPageIds_spec {pages : List (List (Row V))} (h : POrd pages) (hval : ∀ p ∈ pages, ∃ x i, (some x, i) ∈ p) :
    allPageIds (loadLookup (analyzeAll 0 pages)) = List.range pages.length ∨
      (allPageIds (loadLookup (analyzeAll 0 pages)) = List.range pages.length ++ [0] ∧ 2 ≤ pages.length ∧
        (loadLookup (analyzeAll 0 pages)).nullPages = [0]) := by
  obtain ⟨h1, h2⟩ := ordered_stats 0 pages h hval
  have hrecs := load_recs _ h1 h2
  unfold allPageIds
  rw [hrecs, pages_analyzeAll, ← List.range_eq_range']
  have hnd : (List.range pages.length).Pairwise (· ≠ ·) := List.nodup_range
  cases pages with
  | nil => exact Or.inl rfl
  | cons p pages =>
    rcases null_pages_zero h (h0 := rfl) (hval p (List.mem_cons_self ..)) with hz | hz
    · rw [hz, List.append_nil]
      exact Or.inl (dedup_of_nodup _ hnd)
    · rw [hz]
      rcases dedup_append _ hnd [0] (by simp) with ⟨h3, h4⟩ | h3
      · refine Or.inr ⟨h3, ?_, rfl⟩
        cases pages with
        | nil => exact absurd rfl h4
        | cons q pages => simp
      · exact Or.inl h3

/-- With one page, the pages read are that page. -/
theorem allPageIds_single (p : List (Row V)) (hne : p ≠ []) :
    allPageIds (loadLookup (analyzeAll 0 [p])) = [0] := by
  have hcase : (analyze p 0).max ≠ none ∨ 0 < (analyze p 0).nulls := by
    cases p with
    | nil => exact absurd rfl hne
    | cons r p =>
      obtain ⟨v, i⟩ := r
      cases v with
      | none => right; simp [analyze]
      | some x =>
        left
        obtain ⟨m, hm, _⟩ := maxVal_spec (((some x, i) :: p).map (·.1)) x (by simp)
        simp only [analyze]
        rw [hm]; simp
  have hnull : (loadLookup (analyzeAll 0 [p])).nullPages = if 0 < (analyze p 0).nulls then [0] else [] := by
    show ((analyzeAll 0 [p]).filter (fun s => decide (0 < s.nulls))).map (·.page) = _
    simp only [analyzeAll, List.filter_cons, List.filter_nil, decide_eq_true_eq]
    split <;> rfl
  have htree : ((loadLookup (analyzeAll 0 [p])).tree.flatMap (·.2)).map PageRec.page =
      if (analyze p 0).max = none then [] else [0] := by
    show ((entry (analyze p 0).max [] (addStat [] (analyze p 0))).flatMap (·.2)).map PageRec.page = _
    rw [entry_empty]
    unfold addStat
    split <;> rfl
  unfold allPageIds
  rw [hnull]
  show dedup (((loadLookup (analyzeAll 0 [p])).tree.flatMap (·.2)).map PageRec.page ++ _) = _
  rw [htree]
  by_cases h1 : (analyze p 0).max = none
  · rw [if_pos h1]
    rcases hcase with h2 | h2
    · exact absurd h1 h2
    · rw [if_pos h2]; rfl
  · rw [if_neg h1]
    split <;> rfl

/-! ### Reading all pages -/

omit [LinOrd V] [DecidableEq V] in
theorem readAll {pages : List (List (Row V))} {bs : Nat} {file : List (Row V)}
    (h : ∀ k p, pages[k]? = some p → readPage bs file k = p) :
    (List.range pages.length).map (readPage bs file) = pages := by
  apply List.ext_getElem?
  intro k
  rw [List.getElem?_map]
  by_cases hk : k < pages.length
  · rw [List.getElem?_range hk]
    have := h k pages[k] (List.getElem?_eq_getElem hk)
    simp [this, hk]
  · rw [List.getElem?_eq_none (by simpa using hk), List.getElem?_eq_none (by simpa using hk)]
    rfl

/-! ### Merging -/

theorem merge_go_spec (tie : Nat → Nat → Bool) (x : Row V) (xs : List (Row V)) (rest : List (Row V) → List (Row V))
    (hx : ∀ r ∈ xs, LinOrd.le x.1 r.1 = true)
    (hrest : ∀ ys, Ordered ys → (rest ys).Perm (xs ++ ys) ∧ Ordered (rest ys)) (hxs : Ordered xs) (ys : List (Row V))
    (hys : Ordered ys) :
    (merge.go tie x xs rest ys).Perm (x :: xs ++ ys) ∧ Ordered (merge.go tie x xs rest ys) := by
  induction ys with
  | nil =>
    simp only [merge.go, List.append_nil]
    exact ⟨List.Perm.refl _, List.pairwise_cons.2 ⟨hx, hxs⟩⟩
  | cons y ys ih =>
    have hys' := hys
    unfold Ordered at hys
    rw [List.pairwise_cons] at hys
    simp only [merge.go]
    split
    · rename_i hc
      have hxy : LinOrd.le x.1 y.1 = true := by
        rw [Bool.or_eq_true, Bool.and_eq_true] at hc
        rcases hc with hc | ⟨hc, _⟩
        · exact le_of_lt hc
        · rw [show x.1 = y.1 from by simpa using hc]; exact le_refl _
      obtain ⟨h1, h2⟩ := hrest (y :: ys) hys'
      refine ⟨List.Perm.cons x h1, List.pairwise_cons.2 ⟨?_, h2⟩⟩
      intro r hr
      rw [h1.mem_iff, List.mem_append, List.mem_cons] at hr
      rcases hr with hr | rfl | hr
      · exact hx r hr
      · exact hxy
      · exact LinOrd.trans _ _ _ hxy (hys.1 r hr)
    · rename_i hc
      have hyx : LinOrd.le y.1 x.1 = true := by
        rw [Bool.or_eq_true, not_or] at hc
        exact (not_lt_iff _ _).1 hc.1
      obtain ⟨h1, h2⟩ := ih hys.2
      refine ⟨?_, List.pairwise_cons.2 ⟨?_, h2⟩⟩
      · exact (List.Perm.cons y h1).trans (List.perm_middle.symm)
      · intro r hr
        rw [h1.mem_iff, List.mem_append, List.mem_cons] at hr
        rcases hr with (rfl | hr) | hr
        · exact hyx
        · exact LinOrd.trans _ _ _ hyx (hx r hr)
        · exact hys.1 r hr

theorem merge_spec (tie : Nat → Nat → Bool) (xs ys : List (Row V)) (hxs : Ordered xs) (hys : Ordered ys) :
    (merge tie xs ys).Perm (xs ++ ys) ∧ Ordered (merge tie xs ys) := by
  induction xs generalizing ys with
  | nil => exact ⟨List.Perm.refl _, hys⟩
  | cons x xs ih =>
    unfold Ordered at hxs
    rw [List.pairwise_cons] at hxs
    simp only [merge]
    exact merge_go_spec tie x xs (merge tie xs) hxs.1 (fun ys h => ih ys hxs.2 h) hxs.2 ys hys

end Verif.Scalar
