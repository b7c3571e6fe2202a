import Verif.Fts.LemmasReach
import Verif.Fts.Example
/-!
# C74: a phrase query returns the documents with the phrase

It does not always.  `Wand::new` leaves out the lists without a selected document before it counts the tokens of the query
(wand.rs:122-140), so a token of which no document is selected does not have to be in the document.  And the tokens of a query are numbered
by their order, while the tokens of a document keep the positions of the text, also where a stop word was removed in between.
-/
namespace Verif.Fts

/-- The full claim, for a search by phrase in an index with positions. -/
def C74_phrase_statement : Prop :=
  ∀ (wt : Nat → Nat → Nat → Nat → Nat → Nat) (x : Index) (c : List Doc), Mono wt → Reach wt true x c →
    (∀ d ∈ c, (d.toks.map (·.2)).Pairwise (· < ·)) →
    ∀ (lib : Lib) (mask : Nat → Bool) (limit : Nat) (scale : Nat → Nat) (query : List Tok), query ≠ [] →
      (∀ y, scale y ≤ y) → (∀ a b, a ≤ b → scale a ≤ scale b) →
      ∃ r, x.fullTextSearch wt true lib mask true limit scale query = .ok (some r) ∧
        ∀ row ∈ r.map Prod.fst, mask row = true ∧ ∃ d ∈ c, d.row = row ∧ d.hasPhrase query

/-- The phrase "7 9": the only document with 9 is not selected.  The document "7 8 7" is returned. -/
theorem C74_phrase_violated : ¬ C74_phrase_statement := by
  intro h
  obtain ⟨r, hr, hall⟩ := h exWt _ _ exWt_mono exReach (by decide) stdLib (fun r => r == 10) 5 id [7, 9] (by decide) (fun _ => Nat.le_refl _)
    (fun _ _ h => h)
  have h1 : ((update exWt true exSched emptyIndex).fullTextSearch exWt true stdLib (fun r => r == 10) true 5 id [7, 9]).toOption =
      some (some [(10, 13)]) := by decide +kernel
  rw [hr] at h1
  simp only [Except.toOption, Option.some.injEq] at h1
  subst h1
  obtain ⟨_, d, hd, hrow, b, hb⟩ := hall 10 (by decide)
  have h9 := hb 1 9 rfl
  simp only [exDocs, List.mem_cons, List.not_mem_nil, or_false] at hd
  rcases hd with rfl | rfl
  · simp at h9
  · simp at hrow

section
variable {wt : Nat → Nat → Nat → Nat → Nat → Nat} {x : Index} {c : List Doc}

theorem goodPos_postings (hr : Rep wt true x c) (hpos : ∀ d ∈ c, (d.toks.map (·.2)).Pairwise (· < ·)) {ids : List Nat}
    (hids : ∀ i ∈ ids, ∃ t, SMap.get t x.tokens.map = some i) : GoodPos (x.postings ids) := by
  intro p hp e he
  obtain ⟨i, k, hk, _, hl, _⟩ := postings_mem hp
  obtain ⟨t, ht⟩ := hids i (List.mem_of_getElem? hk)
  rw [hl] at he
  obtain ⟨d, hd, _, rfl⟩ := (hr.entry_iff ht e).1 he
  simp only [entry, if_true]
  have : (occ t d.toks).Sublist (d.toks.map (·.2)) := List.Sublist.map _ List.filter_sublist
  exact List.Pairwise.sublist this (hpos d hd)

theorem filterMap_full {f : Nat → Option Nat} : ∀ {q : List Nat}, (q.filterMap f).length = q.length →
    ∀ (k : Nat) (t : Nat), q[k]? = some t → ∃ i, f t = some i ∧ (q.filterMap f)[k]? = some i := by
  intro q
  induction q with
  | nil => intro _ k t h; simp at h
  | cons a q ih =>
    intro hl k t h
    rw [List.filterMap_cons] at hl ⊢
    cases ha : f a with
    | none =>
      rw [ha] at hl
      simp only [List.length_cons] at hl
      have := List.length_filterMap_le f q
      omega
    | some i =>
      rw [ha] at hl
      simp only [List.length_cons, Nat.add_right_cancel_iff] at hl
      cases k with
      | zero =>
        simp only [List.getElem?_cons_zero, Option.some.injEq] at h
        subst h
        exact ⟨i, ha, rfl⟩
      | succ k =>
        rw [List.getElem?_cons_succ] at h
        obtain ⟨j, h1, h2⟩ := ih hl k t h
        exact ⟨j, h1, by simpa using h2⟩

theorem filterMap_full' {f : Nat → Option Nat} : ∀ {q : List Nat}, (q.filterMap f).length = q.length →
    ∀ (k : Nat) (i : Nat), (q.filterMap f)[k]? = some i → ∃ t, q[k]? = some t ∧ f t = some i := by
  intro q hl k i h
  have hk : k < q.length := by
    have := (List.getElem?_eq_some_iff.1 h).1
    omega
  obtain ⟨j, h1, h2⟩ := filterMap_full hl k q[k] (List.getElem?_eq_getElem hk)
  rw [h] at h2
  cases h2
  exact ⟨q[k], List.getElem?_eq_getElem hk, h1⟩

/-- What holds: if for every token of the phrase there is a selected document with the token, the result is the `limit` best of the selected
documents with the phrase.  `hsel` is missing in the claim.  If a token is in no document at all the result is empty, as it should be. -/
theorem C74_phrase_partial (hmono : Mono wt) (h : Reach wt true x c) (hpos : ∀ d ∈ c, (d.toks.map (·.2)).Pairwise (· < ·)) (lib : Lib)
    (mask : Nat → Bool) (limit : Nat) (scale : Nat → Nat) (query : List Tok) (hq : query ≠ [])
    (hscale : ∀ y, scale y ≤ y) (hsm : ∀ a b, a ≤ b → scale a ≤ scale b)
    (hsel : ∀ t ∈ query, ∃ d ∈ c, mask d.row = true ∧ t ∈ d.toks.map (·.1)) :
    ∃ r score, x.fullTextSearch wt true lib mask true limit scale query = .ok (some r) ∧
      TopK (fun row => mask row = true ∧ ∃ d ∈ c, d.row = row ∧ d.hasPhrase query) score limit r := by
  obtain ⟨hr, hnd⟩ := h.rep hmono
  have hknown : ∀ t ∈ query, ∃ i, SMap.get t x.tokens.map = some i := by
    intro t ht
    obtain ⟨d, hd, _, htd⟩ := hsel t ht
    cases hg : SMap.get t x.tokens.map with
    | none =>
      exfalso
      have := (mem_docEntries (withPos := true)).2 ⟨d, hd, occ_ne_nil.2 htd, rfl⟩
      rw [hr.absent t hg] at this
      cases this
    | some i => exact ⟨i, rfl⟩
  have hlen : (query.filterMap (fun t => SMap.get t x.tokens.map)).length = query.length := by
    clear hq hsel
    induction query with
    | nil => rfl
    | cons t q ih =>
      obtain ⟨i, hi⟩ := hknown t (List.mem_cons_self ..)
      rw [List.filterMap_cons, hi]
      simp only [List.length_cons]
      rw [ih fun t ht => hknown t (List.mem_cons_of_mem _ ht)]
  generalize hids : query.filterMap (fun t => SMap.get t x.tokens.map) = ids at hlen
  have hmem : ∀ i ∈ ids, ∃ t, SMap.get t x.tokens.map = some i := by
    intro i hi
    rw [← hids] at hi
    obtain ⟨t, _, he⟩ := List.mem_filterMap.1 hi
    exact ⟨t, he⟩
  obtain ⟨r, h1, h2⟩ := search_spec (mask := mask) (phrase := true) (limit := limit) lib (hr.good ids hmem)
    (fun _ => goodPos_postings hr hpos hmem) hscale hsm
  have hact : active mask (x.postings ids) = x.postings ids := by
    unfold active
    rw [List.filter_eq_self]
    intro p hp
    obtain ⟨i, k, hk, _, hl, _⟩ := postings_mem hp
    rw [← hids] at hk
    obtain ⟨t, ht, hg⟩ := filterMap_full' (by rw [hids]; exact hlen) k i hk
    obtain ⟨d, hd, hm, htd⟩ := hsel t (List.mem_of_getElem? ht)
    rw [hl]
    exact List.any_eq_true.2 ⟨_, (hr.entry_iff hg _).2 ⟨d, hd, occ_ne_nil.2 htd, rfl⟩, hm⟩
  rw [hact] at h2
  refine ⟨r, docScore (x.contrib wt) (x.postings ids), ?_, h2.congr ?_ (fun _ _ => rfl)⟩
  · unfold Index.fullTextSearch
    simp only [hids, if_true, Bool.not_true, Bool.false_eq_true, if_false, h1]
    rw [if_neg (by rw [hlen]; exact fun h => h rfl)]
  · intro row
    refine ⟨?_, ?_⟩
    · rintro ⟨hm, _, hph⟩
      obtain ⟨b, hb⟩ := hph rfl
      refine ⟨hm, ?_⟩
      -- the document, from the first token
      have hall : ∀ (k : Nat) (t : Tok), query[k]? = some t → ∃ d ∈ c, d.row = row ∧ (t, b + (k : Int)) ∈ d.toks := by
        intro k t hk
        obtain ⟨i, hi, hk'⟩ := filterMap_full (by rw [hids]; exact hlen) k t hk
        rw [hids] at hk'
        obtain ⟨e, he, hrow, hin⟩ := hb _ (mem_postings hk')
        obtain ⟨d, hd, _, rfl⟩ := (hr.entry_iff hi e).1 he
        exact ⟨d, hd, hrow, mem_occ.1 (by simpa [entry] using hin)⟩
      obtain ⟨t0, q', hqe⟩ := List.exists_cons_of_ne_nil hq
      obtain ⟨d, hd, hrow, _⟩ := hall 0 t0 (by rw [hqe]; rfl)
      refine ⟨d, hd, hrow, b, ?_⟩
      intro k t hk
      obtain ⟨d', hd', hrow', hin⟩ := hall k t hk
      rw [doc_unique hnd hd hd' (hrow.trans hrow'.symm)]
      exact hin
    · rintro ⟨hm, d, hd, hrow, b, hb⟩
      have hph : phraseAt (x.postings ids) row b := by
        intro p hp
        obtain ⟨i, k, hk, hqp, hl, _⟩ := postings_mem hp
        rw [← hids] at hk
        obtain ⟨t, ht, hg⟩ := filterMap_full' (by rw [hids]; exact hlen) k i hk
        have hin := hb k t ht
        rw [hl, hqp]
        have hocc := mem_occ.2 hin
        exact ⟨entry true d.row (occ t d.toks), (hr.entry_iff hg _).2 ⟨d, hd, (fun e => by rw [e] at hocc; cases hocc), rfl⟩, hrow, hocc⟩
      refine ⟨hm, ?_, fun _ => ⟨b, hph⟩⟩
      obtain ⟨t0, q', hqe⟩ := List.exists_cons_of_ne_nil hq
      obtain ⟨i, hi, hk'⟩ := filterMap_full (q := query) (by rw [hids]; exact hlen) 0 t0 (by rw [hqe]; rfl)
      rw [hids] at hk'
      obtain ⟨e, he, hrow', _⟩ := hph _ (mem_postings hk')
      exact ⟨_, mem_postings hk', e, he, hrow'⟩

/-- A token that no document ever had: the result is empty, and indeed no document has the phrase. -/
theorem C74_unknown_token (hmono : Mono wt) (h : Reach wt true x c) (lib : Lib) (mask : Nat → Bool) (limit : Nat) (scale : Nat → Nat)
    (query : List Tok) (t : Tok) (ht : t ∈ query) (hn : SMap.get t x.tokens.map = none) :
    x.fullTextSearch wt true lib mask true limit scale query = .ok (some []) ∧ ∀ d ∈ c, ¬ d.hasPhrase query := by
  obtain ⟨hr, _⟩ := h.rep hmono
  refine ⟨?_, ?_⟩
  · unfold Index.fullTextSearch
    have hlen : (query.filterMap (fun t => SMap.get t x.tokens.map)).length ≠ query.length := by
      intro hl
      obtain ⟨k, hk⟩ := List.getElem?_of_mem ht
      obtain ⟨i, hi, _⟩ := filterMap_full hl k t hk
      rw [hn] at hi
      cases hi
    simp only [if_true, Bool.not_true, Bool.false_eq_true, if_false]
    rw [if_pos hlen]
  · rintro d hd ⟨b, hb⟩
    obtain ⟨k, hk⟩ := List.getElem?_of_mem ht
    have hin := hb k t hk
    have hocc := mem_occ.2 hin
    have := (mem_docEntries (withPos := true)).2 ⟨d, hd, (fun e => by rw [e] at hocc; cases hocc), rfl⟩
    rw [hr.absent t hn] at this
    cases this

end

/-- The example: "7 8" is in the first document only, "8" and "7" both have selected documents. -/
theorem C74_nonvacuous :
    ((update exWt true exSched emptyIndex).fullTextSearch exWt true stdLib (fun _ => true) true 5 id [7, 8]).toOption.map (·.map (·.map Prod.fst)) =
      some (some [10]) ∧
    ((update exWt true exSched emptyIndex).fullTextSearch exWt true stdLib (fun _ => true) true 5 id [8, 9]).toOption.map (·.map (·.map Prod.fst)) =
      some (some [11]) ∧
    ((update exWt true exSched emptyIndex).fullTextSearch exWt true stdLib (fun _ => true) true 5 id [8, 8]).toOption.map (·.map (·.map Prod.fst)) =
      some (some []) := by decide +kernel

/-! ## The same text -/

/-- The tokenizer (tokenizer.rs:103-140): the words of a text at their places, without those that a filter removes (stop words, words that
are too long).  Documents keep the positions (builder.rs:186-189), queries keep the order only (`collect_tokens`, index.rs:150-166). -/
def tokenize (keep : Tok → Bool) (words : List Tok) : List (Tok × Int) :=
  (words.zipIdx.filter (fun wi => keep wi.1)).map (fun wi => (wi.1, (wi.2 : Int)))

/-- A text has every phrase that is a part of it. -/
def C74_same_text_statement : Prop :=
  ∀ (keep : Tok → Bool) (pre words post : List Tok) (row : Nat),
    (⟨row, tokenize keep (pre ++ words ++ post)⟩ : Doc).hasPhrase ((tokenize keep words).map (·.1))

/-- "1 2 3" where 2 is a stop word: 1 and 3 are not at consecutive positions. -/
theorem C74_same_text_violated : ¬ C74_same_text_statement := by
  intro h
  obtain ⟨b, hb⟩ := h (fun t => t != 2) [] [1, 2, 3] [] 0
  have h1 := hb 0 1 (by decide)
  have h3 := hb 1 3 (by decide)
  simp [tokenize, List.zipIdx] at h1 h3
  omega

theorem tokenize_all (words : List Tok) : tokenize (fun _ => true) words = words.zipIdx.map (fun wi => (wi.1, (wi.2 : Int))) := by
  unfold tokenize
  rw [List.filter_eq_self.2 (fun _ _ => rfl)]

/-- What holds: a tokenizer that removes nothing. -/
theorem C74_same_text_partial (pre words post : List Tok) (row : Nat) :
    (⟨row, tokenize (fun _ => true) (pre ++ words ++ post)⟩ : Doc).hasPhrase ((tokenize (fun _ => true) words).map (·.1)) := by
  refine ⟨(pre.length : Int), ?_⟩
  intro i t hi
  simp only [tokenize_all] at hi ⊢
  rw [List.map_map, List.getElem?_map, List.getElem?_zipIdx] at hi
  have hw : words[i]? = some t := by
    cases hg : words[i]? with
    | none => rw [hg] at hi; cases hi
    | some w => rw [hg] at hi; simpa using hi
  refine List.mem_map.2 ⟨(t, pre.length + i), ?_, by simp⟩
  rw [List.mk_mem_zipIdx_iff_getElem?]
  have hlt := (List.getElem?_eq_some_iff.1 hw).1
  rw [List.append_assoc, List.getElem?_append_right (by omega), List.getElem?_append_left (by omega)]
  simpa using hw

end Verif.Fts
