import Verif.Fts.LemmasReach
import Verif.Fts.Example
import Verif.Deletion.Lemmas
/-!
# C73: a full text search returns the best documents

The search skips documents by upper bounds (WAND).  For every history of the index, every choice of the sorting and the heap, every
selection of rows by the prefilter, and every limit the result is the `limit` best of the selected documents that have a token of the
query, with their scores.
-/
namespace Verif.Fts

/-- Of the posting lists: the best selected documents of the lists, by the sum of what the lists contribute.  `scale` is the
multiplication of the threshold with `wand_factor`, at most one. -/
theorem C73_wand (lib : Lib) (mask : Nat → Bool) (contrib : Nat → Nat → Nat → Nat) (limit : Nat) (scale : Nat → Nat) (ps : List Posting)
    (hg : Good contrib ps) (hscale : ∀ y, scale y ≤ y) (hsm : ∀ a b, a ≤ b → scale a ≤ scale b) :
    ∃ r, search lib mask contrib false limit scale ps = some r ∧
      TopK (fun d => mask d = true ∧ ∃ p ∈ ps, ∃ e ∈ p.list, e.row = d) (docScore contrib ps) limit r := by
  obtain ⟨r, h1, h2⟩ := search_spec (mask := mask) (phrase := false) (limit := limit) lib hg (fun h => nomatch h) hscale hsm
  refine ⟨r, h1, h2.congr ?_ ?_⟩
  · intro d
    constructor
    · rintro ⟨hm, ⟨p, hp, hpd⟩, _⟩
      exact ⟨hm, p, (List.mem_filter.1 hp).1, hpd⟩
    · rintro ⟨hm, p, hp, e, he, hrow⟩
      refine ⟨hm, ⟨p, List.mem_filter.2 ⟨hp, List.any_eq_true.2 ⟨e, he, ?_⟩⟩, e, he, hrow⟩, fun h => nomatch h⟩
      rw [hrow]
      exact hm
  · intro d hd
    exact docScore_active hd.1

/-- Of an index: the best selected documents that have a token of the query, by their BM25 score. -/
theorem C73_search {wt : Nat → Nat → Nat → Nat → Nat → Nat} {withPos : Bool} {x : Index} {c : List Doc} (hmono : Mono wt)
    (h : Reach wt withPos x c) (lib : Lib) (mask : Nat → Bool) (limit : Nat) (scale : Nat → Nat) (query : List Tok)
    (hscale : ∀ y, scale y ≤ y) (hsm : ∀ a b, a ≤ b → scale a ≤ scale b) :
    ∃ r, x.fullTextSearch wt withPos lib mask false limit scale query = .ok (some r) ∧
      TopK (fun row => mask row = true ∧ ∃ d ∈ c, d.row = row ∧ ∃ t ∈ query, t ∈ d.toks.map (·.1)) (rowScore wt c query) limit r := by
  obtain ⟨hr, hnd⟩ := h.rep hmono
  have hperm := ids_perm hr query
  generalize hids : dedupAdj (sortBy id (query.filterMap (fun t => SMap.get t x.tokens.map))) = ids at hperm
  have hmem : ∀ i ∈ ids, ∃ t ∈ query, SMap.get t x.tokens.map = some i := by
    intro i hi
    obtain ⟨t, ht, he⟩ := List.mem_filterMap.1 (hperm.mem_iff.1 hi)
    exact ⟨t, List.mem_eraseDups.1 ht, he⟩
  obtain ⟨r, h1, h2⟩ := C73_wand lib mask (x.contrib wt) limit scale (x.postings ids)
    (hr.good ids fun i hi => (hmem i hi).imp fun _ h => h.2) hscale hsm
  have hok : ∀ row, (mask row = true ∧ ∃ p ∈ x.postings ids, ∃ e ∈ p.list, e.row = row) ↔
      (mask row = true ∧ ∃ d ∈ c, d.row = row ∧ ∃ t ∈ query, t ∈ d.toks.map (·.1)) := by
    intro row
    refine and_congr_right fun _ => ?_
    constructor
    · rintro ⟨p, hp, e, he, hrow⟩
      obtain ⟨i, k, hk, _, hl, _⟩ := postings_mem hp
      obtain ⟨t, ht, hg⟩ := hmem i (List.mem_of_getElem? hk)
      rw [hl] at he
      obtain ⟨d, hd, hne, rfl⟩ := (hr.entry_iff hg e).1 he
      exact ⟨d, hd, hrow, t, ht, occ_ne_nil.1 hne⟩
    · rintro ⟨d, hd, hrow, t, ht, htd⟩
      cases hg : SMap.get t x.tokens.map with
      | none =>
        exfalso
        have := (mem_docEntries (withPos := withPos)).2 ⟨d, hd, occ_ne_nil.2 htd, rfl⟩
        rw [hr.absent t hg] at this
        cases this
      | some i =>
        have hi : i ∈ ids := hperm.mem_iff.2 (List.mem_filterMap.2 ⟨t, List.mem_eraseDups.2 ht, hg⟩)
        obtain ⟨k, hk⟩ := List.getElem?_of_mem hi
        exact ⟨_, mem_postings hk, entry withPos d.row (occ t d.toks), (hr.entry_iff hg _).2 ⟨d, hd, occ_ne_nil.2 htd, rfl⟩, hrow⟩
  refine ⟨r, ?_, h2.congr hok ?_⟩
  · unfold Index.fullTextSearch
    simp only [hids, Bool.false_eq_true, if_false, h1]
  · intro row hrow
    obtain ⟨_, d, hd, rfl, _⟩ := (hok row).1 hrow
    rw [hr.score hnd query hd hperm, rowScore_doc hnd hd]

/-- Without a limit that is reached, all of them are returned. -/
theorem C73_all {wt : Nat → Nat → Nat → Nat → Nat → Nat} {withPos : Bool} {x : Index} {c : List Doc} (hmono : Mono wt)
    (h : Reach wt withPos x c) (lib : Lib) (mask : Nat → Bool) (limit : Nat) (scale : Nat → Nat) (query : List Tok)
    (hscale : ∀ y, scale y ≤ y) (hsm : ∀ a b, a ≤ b → scale a ≤ scale b) (hlimit : c.length < limit) :
    ∃ r, x.fullTextSearch wt withPos lib mask false limit scale query = .ok (some r) ∧
      ∀ row s, (row, s) ∈ r ↔ mask row = true ∧ ∃ d ∈ c, d.row = row ∧ (∃ t ∈ query, t ∈ d.toks.map (·.1)) ∧ s = bm25 wt c query d := by
  obtain ⟨r, h1, h2⟩ := C73_search hmono h lib mask limit scale query hscale hsm
  have hnd := (h.rep hmono).2
  have hlen : r.length < limit := by
    have hsub : ∀ a ∈ r.map Prod.fst, a ∈ c.map Doc.row := by
      intro a ha
      obtain ⟨y, hy, rfl⟩ := List.mem_map.1 ha
      obtain ⟨⟨_, d, hd, hrow, _⟩, _⟩ := h2.sound y hy
      exact List.mem_map.2 ⟨d, hd, hrow⟩
    have hnd' : (r.map Prod.fst).Nodup := h2.sorted.imp fun h => Nat.ne_of_lt h
    have := Verif.Deletion.nodup_length_le hnd' hsub
    simp only [List.length_map] at this
    omega
  refine ⟨r, h1, ?_⟩
  intro row s
  constructor
  · intro hm
    obtain ⟨⟨hmask, d, hd, hrow, ht⟩, hs⟩ := h2.sound _ hm
    simp only at hmask hrow hs
    refine ⟨hmask, d, hd, hrow, ht, ?_⟩
    rw [hs, ← hrow, rowScore_doc hnd hd]
  · rintro ⟨hmask, d, hd, hrow, ht, rfl⟩
    have hc := h2.complete hlen row ⟨hmask, d, hd, hrow, ht⟩
    obtain ⟨y, hy, hye⟩ := List.mem_map.1 hc
    have := (h2.sound y hy).2
    rw [hye, ← hrow, rowScore_doc hnd hd] at this
    obtain ⟨y1, y2⟩ := y
    simp only at hye this
    rw [hye, this] at hy
    exact hy

/-- The example: of the two documents with token 8 the better one is returned, its row id after the compaction. -/
theorem C73_nonvacuous :
    Reach exWt true (remap exWt [(10, some 20)] (update exWt true exSched emptyIndex)) (remapDocs [(10, some 20)] exDocs) ∧ Mono exWt ∧
    ((remap exWt [(10, some 20)] (update exWt true exSched emptyIndex)).fullTextSearch exWt true stdLib (fun _ => true) false 1 id [8, 7, 8]).toOption =
      some (some [(20, 18)]) ∧
    ((remap exWt [(10, some 20)] (update exWt true exSched emptyIndex)).fullTextSearch exWt true stdLib (fun r => r != 20) false 1 id [8, 7, 8]).toOption =
      some (some [(11, 6)]) :=
  ⟨exReach2, exWt_mono, by decide +kernel, by decide +kernel⟩

end Verif.Fts
