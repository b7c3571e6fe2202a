import Verif.Fts.LemmasRemap
import Verif.Fts.LemmasSearch
/-! # Full text search: from histories to results -/
namespace Verif.Fts

theorem Reach.rep {wt : Nat → Nat → Nat → Nat → Nat → Nat} {withPos : Bool} (hmono : Mono wt) {x : Index} {c : List Doc}
    (h : Reach wt withPos x c) : Rep wt withPos x c ∧ (c.map Doc.row).Nodup := by
  induction h with
  | new => exact ⟨Rep.empty wt withPos, List.nodup_nil⟩
  | update s docs _ hv hnd ih => exact ⟨ih.1.update hv hnd, hnd⟩
  | remap m _ hf ih => exact ⟨ih.1.remap hmono ih.2 hf, remap_rows_nodup hf ih.2⟩

theorem tf_eq (d : Doc) (t : Tok) : tf d t = (occ t d.toks).length := by
  unfold tf occ
  rw [List.length_map]

theorem tf_zero (d : Doc) (t : Tok) : tf d t = 0 ↔ occ t d.toks = [] := by
  rw [tf_eq, List.length_eq_zero_iff]

theorem docEntries_length (withPos : Bool) (t : Tok) (c : List Doc) : (docEntries withPos t c).length = df c t := by
  unfold df
  induction c with
  | nil => rfl
  | cons d c ih =>
    rw [docEntries, List.filter_cons]
    by_cases h : (occ t d.toks).isEmpty = true
    · rw [if_pos h, ih]
      have := (tf_zero d t).2 (List.isEmpty_iff.1 h)
      simp [this]
    · rw [if_neg h]
      have h2 : tf d t ≠ 0 := fun e => h (List.isEmpty_iff.2 ((tf_zero d t).1 e))
      simp [h2, ih]

theorem docLens_length (c : List Doc) : (docLens c).length = c.length := by simp [docLens]

theorem docLens_sum (c : List Doc) : ((docLens c).map (·.2)).sum = tokensOf c := by
  unfold docLens tokensOf
  rw [List.map_map]
  rfl

theorem find_doc {c : List Doc} (hnd : (c.map Doc.row).Nodup) {d : Doc} (hd : d ∈ c) : c.find? (fun d' => d'.row == d.row) = some d := by
  induction c with
  | nil => cases hd
  | cons a c ih =>
    rw [List.map_cons, List.nodup_cons] at hnd
    rw [List.find?_cons]
    rcases List.mem_cons.1 hd with h | h
    · subst h
      simp
    · have hne : a.row ≠ d.row := fun e => hnd.1 (e ▸ List.mem_map.2 ⟨d, h, rfl⟩)
      rw [show (a.row == d.row) = false from by simpa using hne]
      exact ih hnd.2 h

theorem doc_unique {c : List Doc} (hnd : (c.map Doc.row).Nodup) {d d' : Doc} (hd : d ∈ c) (hd' : d' ∈ c) (h : d.row = d'.row) : d = d' := by
  have h1 := find_doc hnd hd
  have h2 := find_doc hnd hd'
  rw [h] at h1
  exact Option.some.inj (h1.symm.trans h2)

theorem rowScore_doc {wt : Nat → Nat → Nat → Nat → Nat → Nat} {c : List Doc} (hnd : (c.map Doc.row).Nodup) {d : Doc} (hd : d ∈ c)
    (q : List Tok) : rowScore wt c q d.row = bm25 wt c q d := by
  unfold rowScore
  rw [find_doc hnd hd]

section
variable {wt : Nat → Nat → Nat → Nat → Nat → Nat} {withPos : Bool} {x : Index} {c : List Doc}

theorem Rep.numTokens (hr : Rep wt withPos x c) {d : Doc} (hd : d ∈ c) : x.docs.numTokens d.row = d.toks.length := by
  unfold DocSet.numTokens
  have : SMap.get d.row x.docs.count = some d.toks.length := by
    rw [get_of_perm hr.doc_sorted hr.docs]
    exact List.mem_map.2 ⟨d, hd, rfl⟩
  rw [this]
  rfl

/-- The entries of the stored list of a token. -/
theorem Rep.entry_iff (hr : Rep wt withPos x c) {t : Tok} {i : Nat} (hi : SMap.get t x.tokens.map = some i) (e : Entry) :
    e ∈ x.batch i ↔ ∃ d ∈ c, occ t d.toks ≠ [] ∧ e = entry withPos d.row (occ t d.toks) := by
  rw [(hr.post t i hi).2.mem_iff, mem_docEntries]

theorem Rep.batch_length (hr : Rep wt withPos x c) {t : Tok} {i : Nat} (hi : SMap.get t x.tokens.map = some i) :
    (x.batch i).length = df c t := by
  rw [(hr.post t i hi).2.length_eq, docEntries_length]

/-- What a stored list contributes to a document. -/
theorem Rep.part_eq (hr : Rep wt withPos x c) (hnd : (c.map Doc.row).Nodup) {t : Tok} {i : Nat} (hi : SMap.get t x.tokens.map = some i)
    {d : Doc} (hd : d ∈ c) (p : Posting) (hp : p.list = x.batch i) :
    part (x.contrib wt) d.row p = if tf d t = 0 then 0 else wt c.length (tokensOf c) (df c t) d.toks.length (tf d t) := by
  unfold part
  rw [hp]
  by_cases h0 : tf d t = 0
  · rw [if_pos h0]
    have : (x.batch i).find? (fun e => e.row == d.row) = none := by
      rw [List.find?_eq_none]
      intro e he
      obtain ⟨d', hd', hne, rfl⟩ := (hr.entry_iff hi e).1 he
      simp only [entry, beq_iff_eq]
      intro hrow
      rw [doc_unique hnd hd' hd hrow] at hne
      exact hne ((tf_zero d t).1 h0)
    rw [this]
  · rw [if_neg h0]
    have hmem : entry withPos d.row (occ t d.toks) ∈ x.batch i := (hr.entry_iff hi _).2 ⟨d, hd, fun e => h0 ((tf_zero d t).2 e), rfl⟩
    cases hf : (x.batch i).find? (fun e => e.row == d.row) with
    | none =>
      rw [List.find?_eq_none] at hf
      exact absurd (by simp [entry]) (hf _ hmem)
    | some e =>
      have he := List.mem_of_find?_eq_some hf
      have hrow : e.row = d.row := by simpa using List.find?_some hf
      obtain ⟨d', hd', _, rfl⟩ := (hr.entry_iff hi e).1 he
      simp only [entry] at hrow
      have := doc_unique hnd hd' hd hrow
      subst this
      simp only [entry, Index.contrib]
      rw [hr.batch_length hi, hr.numTokens hd, ← tf_eq, hr.total, docLens_sum, hr.docs.length_eq, docLens_length]

theorem postings_mem {ids : List Nat} {p : Posting} (h : p ∈ x.postings ids) :
    ∃ (i k : Nat), ids[k]? = some i ∧ p.qpos = (k : Int) ∧ p.list = x.batch i ∧ p.ub = (x.maxScores[i]?).getD 0 := by
  unfold Index.postings at h
  obtain ⟨⟨i, k⟩, hik, rfl⟩ := List.mem_map.1 h
  exact ⟨i, k, by simpa using List.mk_mem_zipIdx_iff_getElem?.1 hik, rfl, rfl, rfl⟩

theorem mem_postings {ids : List Nat} {i k : Nat} (h : ids[k]? = some i) :
    { token := i, qpos := (k : Int), list := x.batch i, ub := (x.maxScores[i]?).getD 0 } ∈ x.postings ids :=
  List.mem_map.2 ⟨(i, k), List.mk_mem_zipIdx_iff_getElem?.2 h, rfl⟩

theorem Rep.good (hr : Rep wt withPos x c) (ids : List Nat) (hids : ∀ i ∈ ids, ∃ t, SMap.get t x.tokens.map = some i) :
    Good (x.contrib wt) (x.postings ids) := by
  refine ⟨?_, ?_⟩
  · intro p hp
    obtain ⟨i, k, hk, _, hl, _⟩ := postings_mem hp
    obtain ⟨t, ht⟩ := hids i (List.mem_of_getElem? hk)
    rw [hl]
    exact (hr.post t i ht).1
  · intro p hp e he
    obtain ⟨i, k, hk, _, hl, hu⟩ := postings_mem hp
    obtain ⟨t, ht⟩ := hids i (List.mem_of_getElem? hk)
    obtain ⟨m, hm, hle⟩ := hr.ub i (hr.ids t i ht)
    rw [hl] at he
    rw [hl, hu, hm]
    exact hle e he

/-- Lists without a selected document contribute nothing to a selected one. -/
theorem docScore_active {mask : Nat → Bool} {ps : List Posting} {contrib : Nat → Nat → Nat → Nat} {d : Nat} (hd : mask d = true) :
    docScore contrib (active mask ps) d = docScore contrib ps d := by
  unfold docScore active
  induction ps with
  | nil => rfl
  | cons p ps ih =>
    rw [List.filter_cons, List.map_cons, List.sum_cons]
    by_cases h : (p.list.any fun e => mask e.row) = true
    · rw [if_pos h, List.map_cons, List.sum_cons, ih]
    · rw [if_neg h, ih]
      have : part contrib d p = 0 := by
        unfold part
        have : p.list.find? (fun e => e.row == d) = none := by
          rw [List.find?_eq_none]
          intro e he
          simp only [beq_iff_eq]
          intro hrow
          refine h (List.any_eq_true.2 ⟨e, he, ?_⟩)
          rw [hrow]
          exact hd
        rw [this]
      omega

theorem TopK.congr {ok ok' : Nat → Prop} {score score' : Nat → Nat} {limit : Nat} {r : List (Nat × Nat)} (h : TopK ok score limit r)
    (hok : ∀ d, ok d ↔ ok' d) (hs : ∀ d, ok d → score d = score' d) : TopK ok' score' limit r := by
  refine ⟨h.sorted, ?_, h.length, ?_, ?_⟩
  · intro y hy
    have := h.sound y hy
    exact ⟨(hok _).1 this.1, this.2.trans (hs _ this.1)⟩
  · intro hl d hd
    exact h.complete hl d ((hok d).2 hd)
  · intro d hd hn y hy
    have := h.best d ((hok d).2 hd) hn y hy
    rw [hs d ((hok d).2 hd)] at this
    exact this

/-! ## Distinct tokens -/

theorem mem_dedupAdj (l : List Nat) (a : Nat) : a ∈ dedupAdj l ↔ a ∈ l := by
  induction l with
  | nil => rfl
  | cons b l ih =>
    cases l with
    | nil => rfl
    | cons c l =>
      rw [dedupAdj]
      by_cases h : b = c
      · rw [if_pos h, ih]
        subst h
        simp
      · rw [if_neg h, List.mem_cons, ih, ← List.mem_cons]

theorem dedupAdj_sorted {l : List Nat} (h : l.Pairwise (· ≤ ·)) : (dedupAdj l).Pairwise (· < ·) := by
  induction l with
  | nil => exact List.Pairwise.nil
  | cons b l ih =>
    cases l with
    | nil => exact List.pairwise_singleton _ _
    | cons c l =>
      rw [dedupAdj]
      have h2 := List.pairwise_cons.1 h
      by_cases hbc : b = c
      · rw [if_pos hbc]
        exact ih h2.2
      · rw [if_neg hbc]
        refine List.pairwise_cons.2 ⟨?_, ih h2.2⟩
        intro a ha
        rw [mem_dedupAdj] at ha
        have h3 := (List.pairwise_cons.1 h2.2).1
        have h4 := h2.1 c (List.mem_cons_self ..)
        rcases List.mem_cons.1 ha with rfl | ha
        · omega
        · have := h3 a ha
          omega

theorem filterMap_nodup {f : Nat → Option Nat} (hinj : ∀ a b i, f a = some i → f b = some i → a = b) {l : List Nat} (h : l.Nodup) :
    (l.filterMap f).Nodup := by
  unfold List.Nodup
  rw [List.pairwise_filterMap]
  refine h.imp ?_
  intro a b hab i hi j hj e
  subst e
  exact hab (hinj a b i hi hj)

theorem ids_perm (hr : Rep wt withPos x c) (q : List Tok) :
    (dedupAdj (sortBy id (q.filterMap (fun t => SMap.get t x.tokens.map)))).Perm (q.eraseDups.filterMap (fun t => SMap.get t x.tokens.map)) := by
  rw [List.perm_ext_iff_of_nodup]
  · intro a
    rw [mem_dedupAdj, mem_sortBy]
    constructor
    · intro h
      obtain ⟨t, ht, he⟩ := List.mem_filterMap.1 h
      exact List.mem_filterMap.2 ⟨t, List.mem_eraseDups.2 ht, he⟩
    · intro h
      obtain ⟨t, ht, he⟩ := List.mem_filterMap.1 h
      exact List.mem_filterMap.2 ⟨t, List.mem_eraseDups.1 ht, he⟩
  · exact (dedupAdj_sorted (sortBy_sorted id _)).imp fun h => Nat.ne_of_lt h
  · exact filterMap_nodup hr.inj (nodup_eraseDups _)

/-- The score from the lists of the query is the score from the documents. -/
theorem Rep.score (hr : Rep wt withPos x c) (hnd : (c.map Doc.row).Nodup) (q : List Tok) {d : Doc} (hd : d ∈ c) {ids : List Nat}
    (hids : ids.Perm (q.eraseDups.filterMap (fun t => SMap.get t x.tokens.map))) :
    docScore (x.contrib wt) (x.postings ids) d.row = bm25 wt c q d := by
  have h1 : docScore (x.contrib wt) (x.postings ids) d.row = (ids.map (fun i => part (x.contrib wt) d.row { token := i, qpos := 0, list := x.batch i, ub := 0 })).sum := by
    unfold docScore Index.postings
    rw [List.map_map]
    have : ∀ (l : List Nat) (n : Nat), ((l.zipIdx n).map (part (x.contrib wt) d.row ∘ fun (p : Nat × Nat) =>
        { token := p.1, qpos := (p.2 : Int), list := x.batch p.1, ub := (x.maxScores[p.1]?).getD 0 })) =
        l.map (fun i => part (x.contrib wt) d.row { token := i, qpos := 0, list := x.batch i, ub := 0 }) := by
      intro l
      induction l with
      | nil => intro n; rfl
      | cons a l ih =>
        intro n
        rw [List.zipIdx_cons, List.map_cons, List.map_cons, ih]
        rfl
    exact congrArg List.sum (this ids 0)
  rw [h1, (hids.map _).sum_nat]
  unfold bm25
  generalize q.eraseDups = l
  induction l with
  | nil => rfl
  | cons t l ih =>
    rw [List.filterMap_cons, List.map_cons, List.sum_cons]
    cases hg : SMap.get t x.tokens.map with
    | none =>
      simp only
      have h0 : tf d t = 0 := by
        rw [tf_zero]
        apply Classical.byContradiction
        intro hne
        have := (mem_docEntries (withPos := withPos)).2 ⟨d, hd, hne, rfl⟩
        rw [hr.absent t hg] at this
        cases this
      rw [if_pos h0, ih]
      omega
    | some i =>
      simp only [List.map_cons, List.sum_cons]
      rw [hr.part_eq hnd hg hd _ rfl, ih]

theorem occ_ne_nil {d : Doc} {t : Tok} : occ t d.toks ≠ [] ↔ t ∈ d.toks.map (·.1) := by
  unfold occ
  rw [Ne, List.map_eq_nil_iff, List.filter_eq_nil_iff]
  constructor
  · intro h
    apply Classical.byContradiction
    intro hn
    refine h ?_
    intro a ha
    simp only [beq_iff_eq]
    intro e
    exact hn (List.mem_map.2 ⟨a, ha, e⟩)
  · intro h hn
    obtain ⟨a, ha, e⟩ := List.mem_map.1 h
    have := hn a ha
    simp [e] at this

theorem mem_occ {d : Doc} {t : Tok} {p : Int} : p ∈ occ t d.toks ↔ (t, p) ∈ d.toks := by
  unfold occ
  rw [List.mem_map]
  constructor
  · rintro ⟨⟨a, b⟩, h, rfl⟩
    have := List.mem_filter.1 h
    simp only [beq_iff_eq] at this
    rw [← this.2]
    exact this.1
  · intro h
    exact ⟨(t, p), List.mem_filter.2 ⟨h, by simp⟩, rfl⟩

end

end Verif.Fts
