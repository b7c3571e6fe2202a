import Verif.Fts.LemmasReach
import Verif.Fts.Example
/-!
# C75: what a full text index stores

For every history of creation, updates and remappings, every number of shards and hash function, every order in which workers receive
documents, flush, and in which lists are written: the stored lists are those of the documents.
-/
namespace Verif.Fts

section
variable {wt : Nat → Nat → Nat → Nat → Nat → Nat} {withPos : Bool} {x x' : Index} {c c' : List Doc}

/-- The list of a token has the documents with the token, by increasing row id, each with how often it has the token and where. -/
theorem C75_posting_lists (hmono : Mono wt) (h : Reach wt withPos x c) (t : Tok) :
    (∀ i, SMap.get t x.tokens.map = some i →
      ((x.batch i).map Entry.row).Pairwise (· < ·) ∧
      ∀ e, e ∈ x.batch i ↔ ∃ d ∈ c, e.row = d.row ∧ 0 < e.freq ∧ e.freq = tf d t ∧
        e.pos = if withPos then (d.toks.filter (fun y => y.1 == t)).map (·.2) else []) ∧
    (SMap.get t x.tokens.map = none → ∀ d ∈ c, t ∉ d.toks.map (·.1)) := by
  have hr := (h.rep hmono).1
  refine ⟨?_, ?_⟩
  · intro i hi
    refine ⟨(hr.post t i hi).1, ?_⟩
    intro e
    rw [hr.entry_iff hi]
    constructor
    · rintro ⟨d, hd, hne, rfl⟩
      exact ⟨d, hd, rfl, List.length_pos_iff.2 hne, (tf_eq d t).symm, rfl⟩
    · rintro ⟨d, hd, h1, h2, h3, h4⟩
      refine ⟨d, hd, ?_, ?_⟩
      · intro e0
        have := (tf_zero d t).2 e0
        omega
      · obtain ⟨er, ef, ep⟩ := e
        simp only at h1 h2 h3 h4
        subst h1
        subst h4
        rw [h3, tf_eq]
        rfl
  · intro hn d hd hm
    have := (mem_docEntries (withPos := withPos)).2 ⟨d, hd, occ_ne_nil.2 hm, rfl⟩
    rw [hr.absent t hn] at this
    cases this

/-- The index knows how many tokens each document has, and how many there are in all. -/
theorem C75_documents (hmono : Mono wt) (h : Reach wt withPos x c) :
    (∀ r n, SMap.get r x.docs.count = some n ↔ ∃ d ∈ c, d.row = r ∧ d.toks.length = n) ∧
    x.docs.count.length = c.length ∧ x.docs.total = tokensOf c := by
  have hr := (h.rep hmono).1
  refine ⟨?_, ?_, ?_⟩
  · intro r n
    rw [get_of_perm hr.doc_sorted hr.docs]
    unfold docLens
    rw [List.mem_map]
    constructor
    · rintro ⟨d, hd, he⟩
      simp only [Prod.mk.injEq] at he
      exact ⟨d, hd, he.1, he.2⟩
    · rintro ⟨d, hd, h1, h2⟩
      exact ⟨d, hd, by rw [h1, h2]⟩
  · rw [hr.docs.length_eq, docLens_length]
  · rw [hr.total, docLens_sum]

/-- The stored greatest score of a list is not less than what the list contributes to any of its documents. -/
theorem C75_max_scores (hmono : Mono wt) (h : Reach wt withPos x c) (t : Tok) (i : Nat) (hi : SMap.get t x.tokens.map = some i) :
    ∃ m, x.maxScores[i]? = some m ∧
      ∀ d ∈ c, t ∈ d.toks.map (·.1) → wt c.length (tokensOf c) (df c t) d.toks.length (tf d t) ≤ m := by
  obtain ⟨hr, hnd⟩ := h.rep hmono
  obtain ⟨m, hm, hle⟩ := hr.ub i (hr.ids t i hi)
  refine ⟨m, hm, ?_⟩
  intro d hd ht
  have he : entry withPos d.row (occ t d.toks) ∈ x.batch i := (hr.entry_iff hi _).2 ⟨d, hd, occ_ne_nil.2 ht, rfl⟩
  have := hle _ he
  simp only [entry] at this
  rw [hr.batch_length hi, hr.numTokens hd, ← tf_eq, hr.total, docLens_sum, hr.docs.length_eq, docLens_length] at this
  exact this

/-- Two histories that end with the same documents have the same list for every token, whatever was done in which order. -/
theorem C75_order_independent (hmono : Mono wt) (h : Reach wt withPos x c) (h' : Reach wt withPos x' c') (hc : c.Perm c') (t : Tok) :
    ((SMap.get t x.tokens.map).map x.batch).getD [] = ((SMap.get t x'.tokens.map).map x'.batch).getD [] := by
  have key : ∀ {y : Index} {a : List Doc}, Reach wt withPos y a →
      ((((SMap.get t y.tokens.map).map y.batch).getD []).map Entry.row).Pairwise (· < ·) ∧
      (((SMap.get t y.tokens.map).map y.batch).getD []).Perm (docEntries withPos t a) := by
    intro y a hy
    have hr := (hy.rep hmono).1
    cases hg : SMap.get t y.tokens.map with
    | none =>
      rw [hr.absent t hg]
      exact ⟨List.Pairwise.nil, List.Perm.refl _⟩
    | some i => exact hr.post t i hg
  obtain ⟨s1, p1⟩ := key h
  obtain ⟨s2, p2⟩ := key h'
  have hp : (docEntries withPos t c).Perm (docEntries withPos t c') := by
    clear p1 p2 s1 s2 key h h'
    induction hc with
    | nil => exact List.Perm.refl _
    | cons d _ ih =>
      rw [docEntries, docEntries]
      split
      · exact ih
      · exact ih.cons _
    | swap a b l =>
      simp only [docEntries]
      split <;> split
      · exact List.Perm.refl _
      · exact List.Perm.refl _
      · exact List.Perm.refl _
      · exact List.Perm.swap _ _ _
    | trans _ _ ih1 ih2 => exact ih1.trans ih2
  have hpp := p1.trans (hp.trans p2.symm)
  refine List.Perm.eq_of_pairwise (le := fun a b => a.row < b.row) ?_ (List.pairwise_map.1 s1) (List.pairwise_map.1 s2) hpp
  intro a b _ _ h1 h2
  omega

end

/-- The example: after the compaction, with lists written in the order 9, 8, 7. -/
theorem C75_nonvacuous :
    Reach exWt true (remap exWt [(10, some 20)] (update exWt true exSched emptyIndex)) (remapDocs [(10, some 20)] exDocs) ∧
    (remap exWt [(10, some 20)] (update exWt true exSched emptyIndex)).batch 1 = [⟨11, 1, [0]⟩, ⟨20, 1, [1]⟩] ∧
    (remap exWt [(10, some 20)] (update exWt true exSched emptyIndex)).batch 2 = [⟨20, 2, [0, 2]⟩] ∧
    (update exWt true exSched emptyIndex).batch 1 = [⟨10, 1, [1]⟩, ⟨11, 1, [0]⟩] :=
  ⟨exReach2, by decide, by decide, by decide⟩

/-- Without the condition that new row ids are not among the old ones the order in which the mapping is read matters: with 1 ↦ 2, 2 ↦ 3
one order loses the number of tokens of a document. -/
theorem C75_chained_mapping_order_matters :
    (DocSet.remap [(1, some 2), (2, some 3)] ⟨[(1, 4), (2, 5)], 9⟩).count = [(3, 4)] ∧
    (DocSet.remap [(2, some 3), (1, some 2)] ⟨[(1, 4), (2, 5)], 9⟩).count = [(2, 4), (3, 5)] := by decide

end Verif.Fts
