import Verif.Fts.LemmasBuild
/-! # Full text search: the index has the documents -/
namespace Verif.Fts

/-- The documents as the index counts them. -/
def docLens (c : List Doc) : List (Nat × Nat) := c.map (fun d => (d.row, d.toks.length))

/-- The index has exactly these documents. -/
structure Rep (wt : Nat → Nat → Nat → Nat → Nat → Nat) (withPos : Bool) (x : Index) (c : List Doc) : Prop where
  tok_sorted : x.tokens.map.Sorted
  next : x.tokens.nextId = x.offsets.length
  ids : ∀ t i, SMap.get t x.tokens.map = some i → i < x.offsets.length
  inj : ∀ t t' i, SMap.get t x.tokens.map = some i → SMap.get t' x.tokens.map = some i → t = t'
  surj : ∀ i < x.offsets.length, ∃ t, SMap.get t x.tokens.map = some i
  post : ∀ t i, SMap.get t x.tokens.map = some i → ((x.batch i).map Entry.row).Pairwise (· < ·) ∧ (x.batch i).Perm (docEntries withPos t c)
  absent : ∀ t, SMap.get t x.tokens.map = none → docEntries withPos t c = []
  doc_sorted : x.docs.count.Sorted
  docs : x.docs.count.Perm (docLens c)
  total : x.docs.total = ((docLens c).map (·.2)).sum
  ub : ∀ i < x.offsets.length, ∃ m, x.maxScores[i]? = some m ∧
    ∀ e ∈ x.batch i, wt x.docs.count.length x.docs.total (x.batch i).length (x.docs.numTokens e.row) e.freq ≤ m

theorem Rep.empty (wt : Nat → Nat → Nat → Nat → Nat → Nat) (withPos : Bool) : Rep wt withPos emptyIndex [] := by
  refine ⟨SMap.sorted_nil, rfl, ?_, ?_, ?_, ?_, fun _ _ => rfl, SMap.sorted_nil, List.Perm.refl _, rfl, ?_⟩
  · intro t i h; cases h
  · intro t t' i h; cases h
  · intro i h; exact absurd h (Nat.not_lt_zero _)
  · intro t i h; cases h
  · intro i h; exact absurd h (Nat.not_lt_zero _)

/-! ## Maps as permutations -/

theorem insert_perm {V : Type} {k : Nat} {v : V} {m : SMap V} (h : SMap.get k m = none) : (SMap.insert k v m).Perm ((k, v) :: m) := by
  induction m with
  | nil => exact List.Perm.refl _
  | cons e m ih =>
    obtain ⟨k', v'⟩ := e
    rw [SMap.get] at h
    rw [SMap.insert]
    by_cases hk : k' = k
    · rw [if_pos hk] at h
      cases h
    · rw [if_neg hk] at h
      split
      · exact List.Perm.refl _
      · rw [if_neg (fun e => hk e.symm)]
        exact ((ih h).cons _).trans (List.Perm.swap _ _ _)

theorem erase_perm {V : Type} {k : Nat} {v : V} {m : SMap V} (hs : m.Sorted) (h : SMap.get k m = some v) : m.Perm ((k, v) :: SMap.erase k m) := by
  induction m with
  | nil => cases h
  | cons e m ih =>
    obtain ⟨k', v'⟩ := e
    rw [SMap.get] at h
    have hs' := SMap.Sorted.tail hs
    unfold SMap.erase
    rw [List.filter_cons]
    by_cases hk : k' = k
    · rw [if_pos hk] at h
      cases h
      subst hk
      simp only [bne_self_eq_false, Bool.false_eq_true, if_false]
      have : m.filter (fun e => e.1 != k') = m := by
        rw [List.filter_eq_self]
        intro a ha
        have := (List.pairwise_cons.1 hs).1 a ha
        simp only at this
        simp
        omega
      rw [this]
    · rw [if_neg hk] at h
      rw [if_pos (by simpa using hk)]
      exact ((ih hs' h).cons _).trans (List.Perm.swap _ _ _)

theorem get_of_perm {V : Type} {m : SMap V} (hs : m.Sorted) {l : List (Nat × V)} (hp : m.Perm l) (k : Nat) (v : V) :
    SMap.get k m = some v ↔ (k, v) ∈ l := by
  rw [SMap.get_iff_mem hs, hp.mem_iff]

theorem get_none_of_perm {V : Type} {m : SMap V} {l : List (Nat × V)} (hp : m.Perm l) (k : Nat) :
    SMap.get k m = none ↔ k ∉ l.map (·.1) := by
  rw [SMap.get_eq_none_iff]
  unfold SMap.keys
  rw [(hp.map (·.1)).mem_iff]

/-! ## Adding lengths -/

theorem addLens_spec : ∀ (l : List (Nat × Nat)) (d : DocSet) (base : List (Nat × Nat)), d.count.Sorted → d.count.Perm base →
    ((base ++ l).map (·.1)).Nodup →
    (l.foldl (fun (d : DocSet) (x : Nat × Nat) => d.add x.1 x.2) d).count.Sorted ∧
    (l.foldl (fun (d : DocSet) (x : Nat × Nat) => d.add x.1 x.2) d).count.Perm (base ++ l) ∧
    (l.foldl (fun (d : DocSet) (x : Nat × Nat) => d.add x.1 x.2) d).total = d.total + (l.map (·.2)).sum := by
  intro l
  induction l with
  | nil =>
    intro d base hs hp _
    exact ⟨hs, by simpa using hp, by simp⟩
  | cons a l ih =>
    intro d base hs hp hnd
    rw [List.foldl_cons]
    have hn : SMap.get a.1 d.count = none := by
      rw [get_none_of_perm hp]
      intro hm
      rw [List.map_append, List.nodup_append] at hnd
      exact hnd.2.2 a.1 hm a.1 (by simp) rfl
    have e : base ++ a :: l = (base ++ [a]) ++ l := by simp
    rw [e] at hnd ⊢
    obtain ⟨i1, i2, i3⟩ := ih (d.add a.1 a.2) (base ++ [a]) (SMap.sorted_insert _ _ _ hs) (by
      refine (insert_perm hn).trans ?_
      refine ((hp.cons (a.1, a.2)).trans ?_)
      exact (List.perm_append_singleton a base).symm) hnd
    refine ⟨i1, i2, ?_⟩
    rw [i3]
    simp only [DocSet.add, List.map_cons, List.sum_cons]
    omega

theorem sum_count {m : SMap Nat} {l : List (Nat × Nat)} (h : m.Perm l) : (DocSet.load m).total = (l.map (·.2)).sum :=
  (h.map _).sum_nat

/-! ## Sorting a list without duplicates -/

theorem toBatch_strict {l : List Entry} (h : (l.map Entry.row).Nodup) : ((toBatch l).map Entry.row).Pairwise (· < ·) := by
  have hp : (toBatch l).Perm l := sortBy_perm _ _
  have h1 : (toBatch l).Pairwise (fun a b => a.row ≤ b.row) := sortBy_sorted _ _
  have h2 : ((toBatch l).map Entry.row).Nodup := (hp.map _).nodup_iff.2 h
  have h3 : ((toBatch l).map Entry.row).Pairwise (· ≤ ·) := List.pairwise_map.2 h1
  exact (h3.and h2).imp fun h => Nat.lt_of_le_of_ne h.1 h.2

theorem rows_nodup {withPos : Bool} {t : Tok} {c : List Doc} {l : List Entry} (hc : (c.map Doc.row).Nodup) (hp : l.Perm (docEntries withPos t c)) :
    (l.map Entry.row).Nodup :=
  (hp.map _).nodup_iff.2 ((docEntries_rows withPos t c).nodup hc)

/-! ## Update -/

/-- The list of tokens of a shard has each once, and only tokens of the shard. -/
theorem readerTokens_spec {s : Sched} {withPos : Bool} {x : Index} {c docs : List Doc} {wt : Nat → Nat → Nat → Nat → Nat → Nat}
    (hr : Rep wt withPos x c) (hv : s.Valid withPos x docs) (k : Nat) :
    (readerTokens s withPos x k).Nodup ∧ (∀ t ∈ readerTokens s withPos x k, s.shard t = k) ∧
    ∀ t, s.shard t = k → (docEntries withPos t docs ≠ [] ∨ SMap.get t x.tokens.map ≠ none) → t ∈ readerTokens s withPos x k := by
  obtain ⟨h1, h2, h3⟩ := worker_spec (withPos := withPos) (hv.last k)
  have hent : ∀ t, (slices (s.reader withPos k).file ((SMap.get t (s.reader withPos k).offs).getD [])).Perm
      (if s.shard t = k then docEntries withPos t docs else []) := by
    intro t
    rw [← msgEntries_messages]
    exact (h3 t).trans (msgEntries_perm (hv.events k))
  have hex : ∀ t, SMap.get t (existing s x k) = if s.shard t = k then SMap.get t x.tokens.map else none := by
    intro t
    unfold existing
    rw [SMap.get_filter_key (fun t => s.shard t == k)]
    by_cases h : s.shard t = k <;> simp [h]
  have hexs : (existing s x k).Sorted := hr.tok_sorted.sublist List.filter_sublist
  refine ⟨?_, ?_, ?_⟩
  · unfold readerTokens
    rw [List.nodup_append]
    refine ⟨?_, ?_, ?_⟩
    · have : ((s.reader withPos k).offs.map (·.1)).Pairwise (· < ·) := List.pairwise_map.2 h1
      exact this.imp fun h => Nat.ne_of_lt h
    · refine List.Nodup.sublist List.filter_sublist ?_
      have : ((existing s x k).map (·.1)).Pairwise (· < ·) := List.pairwise_map.2 hexs
      exact this.imp fun h => Nat.ne_of_lt h
    · intro a ha b hb e
      subst e
      have := (List.mem_filter.1 hb).2
      rw [Option.isNone_iff_eq_none, SMap.get_eq_none_iff] at this
      exact this ha
  · intro t ht
    rcases List.mem_append.1 ht with ht | ht
    · cases ho : SMap.get t (s.reader withPos k).offs with
      | none =>
        rw [SMap.get_eq_none_iff] at ho
        exact absurd ht ho
      | some os =>
        have hp := hent t
        rw [ho] at hp
        simp only [Option.getD_some] at hp
        have hne := h2 t os ho
        by_cases hk : s.shard t = k
        · exact hk
        · rw [if_neg hk] at hp
          exact absurd (List.perm_nil.1 hp) hne
    · have hm := (List.mem_filter.1 ht).1
      by_cases hk : s.shard t = k
      · exact hk
      · have := hex t
        rw [if_neg hk, SMap.get_eq_none_iff] at this
        exact absurd hm this
  · intro t hk hor
    unfold readerTokens
    by_cases ho : t ∈ SMap.keys (s.reader withPos k).offs
    · exact List.mem_append_left _ ho
    · refine List.mem_append_right _ ?_
      rw [← SMap.get_eq_none_iff] at ho
      rcases hor with hd | hd
      · exfalso
        have hp := hent t
        rw [ho, if_pos hk] at hp
        exact hd (List.nil_perm.1 hp)
      · refine List.mem_filter.2 ⟨?_, by rw [ho]; rfl⟩
        have := hex t
        rw [if_pos hk] at this
        by_cases hm : t ∈ SMap.keys (existing s x k)
        · exact hm
        · rw [← SMap.get_eq_none_iff, this] at hm
          exact absurd hm hd

theorem readToken_perm {s : Sched} {withPos : Bool} {x : Index} {c docs : List Doc} {wt : Nat → Nat → Nat → Nat → Nat → Nat}
    (hr : Rep wt withPos x c) (hv : s.Valid withPos x docs) (t : Tok) :
    (readToken s withPos x (s.shard t) t).Perm (docEntries withPos t (c ++ docs)) := by
  obtain ⟨h1, h2, h3⟩ := worker_spec (withPos := withPos) (hv.last (s.shard t))
  have hp1 : (slices (s.reader withPos (s.shard t)).file ((SMap.get t (s.reader withPos (s.shard t)).offs).getD [])).Perm (docEntries withPos t docs) := by
    have := (h3 t).trans (msgEntries_perm (hv.events (s.shard t)))
    rw [msgEntries_messages, if_pos rfl] at this
    exact this
  have hex : SMap.get t (existing s x (s.shard t)) = SMap.get t x.tokens.map := by
    unfold existing
    rw [SMap.get_filter_key (fun t' => s.shard t' == s.shard t)]
    simp
  unfold readToken
  simp only
  refine (sortBy_perm _ _).trans ?_
  rw [docEntries_append, hex]
  refine List.Perm.trans ?_ (List.perm_append_comm (l₁ := docEntries withPos t docs) (l₂ := docEntries withPos t c))
  refine List.Perm.append hp1 ?_
  cases hg : SMap.get t x.tokens.map with
  | none =>
    simp only
    rw [hr.absent t hg]
  | some i => exact (hr.post t i hg).2

theorem Rep.update {wt : Nat → Nat → Nat → Nat → Nat → Nat} {withPos : Bool} {x : Index} {c docs : List Doc} {s : Sched}
    (hr : Rep wt withPos x c) (hv : s.Valid withPos x docs) (hnd : ((c ++ docs).map Doc.row).Nodup) :
    Rep wt withPos (Verif.Fts.update wt withPos s x) (c ++ docs) := by
  -- names
  generalize hx' : Verif.Fts.update wt withPos s x = x'
  have hshard : ∀ kt ∈ s.merged, s.shard kt.2 = kt.1 ∧ kt.2 ∈ readerTokens s withPos x kt.1 := by
    intro kt hkt
    have := hv.merged.mem_iff.1 hkt
    rw [List.mem_flatMap] at this
    obtain ⟨k, _, hk⟩ := this
    obtain ⟨t, ht, rfl⟩ := List.mem_map.1 hk
    exact ⟨(readerTokens_spec hr hv k).2.1 t ht, ht⟩
  have hmnd : (s.merged.map (·.2)).Nodup := by
    have h1 : s.merged.Nodup := by
      rw [hv.merged.nodup_iff]
      unfold List.Nodup
      rw [List.pairwise_flatMap]
      refine ⟨?_, ?_⟩
      · intro k _
        refine List.pairwise_map.2 ((readerTokens_spec hr hv k).1.imp ?_)
        intro a b hab e
        simp only [Prod.mk.injEq] at e
        exact hab e.2
      · refine List.nodup_range.imp ?_
        intro a b hab y hy z hz e
        obtain ⟨t, _, rfl⟩ := List.mem_map.1 hy
        obtain ⟨t', _, rfl⟩ := List.mem_map.1 hz
        simp only [Prod.mk.injEq] at e
        exact hab e.1
    unfold List.Nodup
    rw [List.pairwise_map]
    refine List.Pairwise.imp_of_mem ?_ h1
    intro a b ha hb hab e
    apply hab
    have h2 := (hshard a ha).1
    have h3 := (hshard b hb).1
    rw [e] at h2
    exact Prod.ext (h2.symm.trans h3) e
  -- the lengths
  have hlens : ((docLens c ++ s.lengths).map (·.1)).Nodup := by
    have hp : (docLens c ++ s.lengths).Perm (docLens (c ++ docs)) := by
      unfold docLens
      rw [List.map_append]
      exact hv.lengths.append_left _
    refine (hp.map _).nodup_iff.2 ?_
    unfold docLens
    rw [List.map_map]
    exact hnd
  obtain ⟨d1, d2, d3⟩ := addLens_spec s.lengths x.docs (docLens c) hr.doc_sorted hr.docs hlens
  have hdp : (docLens c ++ s.lengths).Perm (docLens (c ++ docs)) := by
    unfold docLens
    rw [List.map_append]
    exact hv.lengths.append_left _
  generalize hdocs : s.lengths.foldl (fun (d : DocSet) (x : Nat × Nat) => d.add x.1 x.2) x.docs = docs' at d1 d2 d3
  -- the lists
  generalize hlists : s.merged.map (fun (kt : Nat × Tok) => (kt.2, readToken s withPos x kt.1 kt.2)) = lists
  have hltoks : lists.map (·.1) = s.merged.map (·.2) := by
    rw [← hlists, List.map_map]
    rfl
  generalize hw : lists.map (fun tl => (tl.2, maxScore wt docs' tl.2)) = ws
  have hxe : x' = {
      tokens := TokenSet.load (lists.foldl (fun (ts : TokenSet) tl => ts.add tl.1) ⟨[], 0⟩).map,
      file := (writeLists ws).2.2,
      offsets := (writeLists ws).1, maxScores := (writeLists ws).2.1, docs := DocSet.load docs'.count } := by
    rw [← hx', ← hw, ← hlists, ← hdocs]
    rfl
  have hfold : lists.foldl (fun (ts : TokenSet) tl => ts.add tl.1) ⟨[], 0⟩ = (s.merged.map (·.2)).foldl TokenSet.add ⟨[], 0⟩ := by
    rw [← hltoks, List.foldl_map]
  obtain ⟨t1, t2⟩ := addAll_spec (s.merged.map (·.2)) ⟨[], 0⟩ [] (by simpa using hmnd) SMap.sorted_nil (by
    intro t i
    constructor <;> intro h <;> simp at h) rfl
  simp only [List.nil_append] at t2
  have hmap : x'.tokens.map = ((s.merged.map (·.2)).foldl TokenSet.add ⟨[], 0⟩).map := by rw [hxe, hfold]; rfl
  have hget : ∀ t i, SMap.get t x'.tokens.map = some i ↔ ∃ k, s.merged[i]? = some (k, t) := by
    intro t i
    rw [hmap, t2, List.getElem?_map]
    constructor
    · intro h
      cases hm : s.merged[i]? with
      | none => rw [hm] at h; cases h
      | some kt =>
        rw [hm] at h
        simp only [Option.map_some, Option.some.injEq] at h
        exact ⟨kt.1, by rw [← h]⟩
    · rintro ⟨k, h⟩
      rw [h]
      rfl
  have hwlen : ws.length = s.merged.length := by rw [← hw, ← hlists]; simp
  have hol : x'.offsets.length = s.merged.length := by
    rw [hxe]
    simp only [writeLists_eq, List.length_map, List.length_range]
    exact hwlen
  have hws : ∀ (i k : Nat) (t : Tok), s.merged[i]? = some (k, t) → ws[i]? = some (readToken s withPos x k t, maxScore wt docs' (readToken s withPos x k t)) := by
    intro i k t h
    rw [← hw, ← hlists, List.getElem?_map, List.getElem?_map, h]
    rfl
  have hbatch : ∀ (i k : Nat) (t : Tok), s.merged[i]? = some (k, t) → x'.batch i = readToken s withPos x k t := by
    intro i k t h
    exact batch_written ws x' (by rw [hxe]) (by rw [hxe]) (hws i k t h)
  have hmem : ∀ (i k : Nat) (t : Tok), s.merged[i]? = some (k, t) → s.shard t = k := fun i k t h => (hshard (k, t) (List.mem_of_getElem? h)).1
  have hcount : x'.docs.count = docs'.count := by rw [hxe]; rfl
  have htotal : x'.docs.total = docs'.total := by
    rw [hxe]
    show (DocSet.load docs'.count).total = docs'.total
    rw [sum_count d2, d3, hr.total, List.map_append, List.sum_append_nat]
  have hids : ∀ t i, SMap.get t x'.tokens.map = some i → i < x'.offsets.length := by
    intro t i h
    obtain ⟨k, hk⟩ := (hget t i).1 h
    rw [hol]
    exact (List.getElem?_eq_some_iff.1 hk).1
  have hsurj : ∀ i < x'.offsets.length, ∃ t, SMap.get t x'.tokens.map = some i := by
    intro i hi
    rw [hol] at hi
    exact ⟨s.merged[i].2, (hget _ _).2 ⟨s.merged[i].1, by rw [List.getElem?_eq_getElem hi]⟩⟩
  refine ⟨?_, ?_, hids, ?_, hsurj, ?_, ?_, ?_, ?_, ?_, ?_⟩
  · rw [hmap]; exact t1
  · have e : x'.tokens = TokenSet.load x'.tokens.map := by rw [hxe]; rfl
    rw [e]
    exact load_nextId (by rw [hmap]; exact t1) hids hsurj
  · intro t t' i h h'
    obtain ⟨k, hk⟩ := (hget t i).1 h
    obtain ⟨k', hk'⟩ := (hget t' i).1 h'
    rw [hk] at hk'
    simp only [Option.some.injEq, Prod.mk.injEq] at hk'
    exact hk'.2
  · intro t i h
    obtain ⟨k, hk⟩ := (hget t i).1 h
    have hsk := hmem i k t hk
    rw [hbatch i k t hk, ← hsk]
    have hp := readToken_perm hr hv t
    refine ⟨?_, hp⟩
    have hn := rows_nodup hnd hp
    unfold readToken at hn ⊢
    simp only at hn ⊢
    refine toBatch_strict ?_
    exact ((sortBy_perm Entry.row _).map _).nodup_iff.1 hn
  · intro t h
    rw [docEntries_append]
    have hnot : t ∉ readerTokens s withPos x (s.shard t) := by
      intro hm
      have hkt : (s.shard t, t) ∈ s.merged := by
        rw [hv.merged.mem_iff, List.mem_flatMap]
        exact ⟨s.shard t, List.mem_range.2 (Nat.mod_lt _ hv.shards), List.mem_map.2 ⟨t, hm, rfl⟩⟩
      obtain ⟨i, hi⟩ := List.getElem?_of_mem hkt
      have := (hget t i).2 ⟨_, hi⟩
      rw [h] at this
      cases this
    have hspec := (readerTokens_spec hr hv (s.shard t)).2.2 t rfl
    have h1 : docEntries withPos t docs = [] := Classical.byContradiction fun hne => hnot (hspec (Or.inl hne))
    have h2 : SMap.get t x.tokens.map = none := Classical.byContradiction fun hne => hnot (hspec (Or.inr hne))
    rw [h1, hr.absent t h2]
    rfl
  · rw [hcount]; exact d1
  · rw [hcount]; exact d2.trans hdp
  · rw [hxe]
    show (DocSet.load docs'.count).total = _
    exact sum_count (d2.trans hdp)
  · intro i hi
    rw [hol] at hi
    have hm : s.merged[i]? = some (s.merged[i].1, s.merged[i].2) := by rw [List.getElem?_eq_getElem hi]
    refine ⟨maxScore wt docs' (readToken s withPos x s.merged[i].1 s.merged[i].2), ?_, ?_⟩
    · rw [hxe]
      simp only [writeLists_eq]
      rw [List.getElem?_map, hws i _ _ hm]
      rfl
    · intro e he
      rw [hbatch i _ _ hm] at he ⊢
      have : x'.docs.numTokens e.row = docs'.numTokens e.row := by unfold DocSet.numTokens; rw [hcount]
      rw [hcount, htotal, this]
      exact le_maxScore he

end Verif.Fts
