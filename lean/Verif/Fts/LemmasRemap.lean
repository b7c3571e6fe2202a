import Verif.Fts.LemmasIndex
import Verif.Fts.SpecIndex
/-! # Full text search: remapping row ids -/
namespace Verif.Fts

theorem newRow_cons (k : Nat) (v : Option Nat) (m : List (Nat × Option Nat)) (r : Nat) :
    newRow ((k, v) :: m) r = if k = r then v else newRow m r := by
  unfold newRow
  rw [List.find?_cons]
  by_cases h : k = r
  · simp [h]
  · rw [if_neg h, show (k == r) = false from by simpa using h]

theorem newRow_nil (r : Nat) : newRow [] r = some r := rfl

theorem newRow_notMem {m : List (Nat × Option Nat)} {r : Nat} (h : r ∉ m.map (·.1)) : newRow m r = some r := by
  induction m with
  | nil => rfl
  | cons e m ih =>
    obtain ⟨k, v⟩ := e
    simp only [List.map_cons, List.mem_cons, not_or] at h
    rw [newRow_cons, if_neg (fun e => h.1 e.symm)]
    exact ih h.2

theorem newRow_mem {m : List (Nat × Option Nat)} {r r' : Nat} (h : newRow m r = some r') : (r' = r ∧ r ∉ m.map (·.1)) ∨ (r, some r') ∈ m := by
  induction m with
  | nil =>
    rw [newRow_nil] at h
    cases h
    exact Or.inl ⟨rfl, by simp⟩
  | cons e m ih =>
    obtain ⟨k, v⟩ := e
    rw [newRow_cons] at h
    by_cases hk : k = r
    · rw [if_pos hk] at h
      subst hk
      subst h
      exact Or.inr (List.mem_cons_self ..)
    · rw [if_neg hk] at h
      rcases ih h with ⟨h1, h2⟩ | h1
      · refine Or.inl ⟨h1, ?_⟩
        simp only [List.map_cons, List.mem_cons, not_or]
        exact ⟨fun e => hk e.symm, h2⟩
      · exact Or.inr (List.mem_cons_of_mem _ h1)

theorem remapList_eq (m : List (Nat × Option Nat)) (l : List Entry) :
    remapList m l = l.filterMap (fun e => (newRow m e.row).map (fun r => { e with row := r })) := by
  induction l with
  | nil => rfl
  | cons e es ih =>
    rw [remapList, List.filterMap_cons]
    unfold newRow
    cases h : (m.find? (fun kv => kv.1 == e.row)).map (·.2) with
    | none => simp only [Option.map_some, ih]; rfl
    | some v =>
      cases v with
      | none => simp only [Option.map_none, ih]; rfl
      | some r => simp only [Option.map_some, ih]; rfl

theorem docEntries_remap (withPos : Bool) (t : Tok) (m : List (Nat × Option Nat)) (c : List Doc) :
    docEntries withPos t (remapDocs m c) = remapList m (docEntries withPos t c) := by
  rw [remapList_eq]
  unfold remapDocs
  induction c with
  | nil => rfl
  | cons d c ih =>
    rw [List.filterMap_cons, docEntries]
    cases h : newRow m d.row with
    | none =>
      simp only [Option.map_none]
      by_cases ho : (occ t d.toks).isEmpty = true
      · rw [if_pos ho, ih]
      · rw [if_neg ho, List.filterMap_cons, ih]
        simp [entry, h]
    | some r =>
      simp only [Option.map_some]
      rw [docEntries]
      by_cases ho : (occ t d.toks).isEmpty = true
      · rw [if_pos ho, if_pos ho, ih]
      · rw [if_neg ho, if_neg ho, List.filterMap_cons, ih]
        simp [entry, h]

/-- Row ids stay distinct. -/
theorem remap_rows_nodup {m : List (Nat × Option Nat)} : ∀ {c : List Doc}, FreshMap m (c.map Doc.row) → (c.map Doc.row).Nodup →
    ((remapDocs m c).map Doc.row).Nodup := by
  intro c hf hnd
  have hrow : (remapDocs m c).map Doc.row = (c.map Doc.row).filterMap (newRow m) := by
    unfold remapDocs
    rw [List.map_filterMap, List.filterMap_map]
    congr 1
    funext d
    simp only [Function.comp, Option.map_map]
    cases newRow m d.row <;> rfl
  rw [hrow]
  unfold List.Nodup
  rw [List.pairwise_filterMap]
  refine List.Pairwise.imp_of_mem ?_ hnd
  intro a b ha hb hab a' ha' b' hb' e
  subst e
  have hmemv : ∀ {r r'}, (r, some r') ∈ m → r' ∈ m.filterMap (·.2) := fun h => List.mem_filterMap.2 ⟨_, h, rfl⟩
  rcases newRow_mem ha' with ⟨h1, _⟩ | h1 <;> rcases newRow_mem hb' with ⟨h2, _⟩ | h2
  · exact hab (h1.symm.trans h2)
  · subst h1
    exact (hf.fresh _ (hmemv h2)).1 ha
  · subst h2
    exact (hf.fresh _ (hmemv h1)).1 hb
  · -- two keys with one new value
    have := hf.vals
    clear hf hnd ha hb ha' hb' hrow hmemv
    induction m with
    | nil => cases h1
    | cons e m ih =>
      obtain ⟨k, v⟩ := e
      rw [List.filterMap_cons] at this
      rcases List.mem_cons.1 h1 with g1 | g1 <;> rcases List.mem_cons.1 h2 with g2 | g2
      · cases g1
        cases g2
        exact hab rfl
      · cases g1
        simp only [List.nodup_cons] at this
        exact this.1 (List.mem_filterMap.2 ⟨(b, some a'), g2, rfl⟩)
      · cases g2
        simp only [List.nodup_cons] at this
        exact this.1 (List.mem_filterMap.2 ⟨(a, some a'), g1, rfl⟩)
      · refine ih g1 g2 ?_
        cases v with
        | none => exact this
        | some v => simp only [List.nodup_cons] at this; exact this.2

/-- One entry of the mapping at a time. -/
theorem remapDocs_cons {k : Nat} {v : Option Nat} {m : List (Nat × Option Nat)} {c : List Doc} (hv : ∀ r, v = some r → r ∉ m.map (·.1))  :
    remapDocs ((k, v) :: m) c = remapDocs m (remapDocs [(k, v)] c) := by
  unfold remapDocs
  rw [List.filterMap_filterMap]
  congr 1
  funext d
  rw [newRow_cons, newRow_cons, newRow_nil]
  by_cases h : k = d.row
  · rw [if_pos h, if_pos h]
    cases v with
    | none => rfl
    | some r =>
      simp only [Option.map_some, Option.bind_some]
      rw [newRow_notMem (hv r rfl)]
      rfl
  · rw [if_neg h, if_neg h]
    rfl

theorem docLens_remap_one (k : Nat) (v : Option Nat) (c : List Doc) :
    docLens (remapDocs [(k, v)] c) = (docLens c).filterMap (fun x => (newRow [(k, v)] x.1).map (fun r => (r, x.2))) := by
  unfold docLens remapDocs
  rw [List.map_filterMap, List.filterMap_map]
  congr 1
  funext d
  simp only [Function.comp, Option.map_map]
  rfl

theorem filterMap_absent {k : Nat} {v : Option Nat} : ∀ {l : List (Nat × Nat)}, k ∉ l.map (·.1) →
    l.filterMap (fun x => (newRow [(k, v)] x.1).map (fun r => (r, x.2))) = l := by
  intro l
  induction l with
  | nil => intro _; rfl
  | cons a l ih =>
    intro h
    simp only [List.map_cons, List.mem_cons, not_or] at h
    rw [List.filterMap_cons, newRow_cons, if_neg h.1, newRow_nil]
    simp only [Option.map_some]
    rw [ih h.2]

theorem sorted_keys_nodup {V : Type} {m : SMap V} (h : m.Sorted) : (m.map (·.1)).Nodup :=
  (List.pairwise_map.2 h : (m.map (·.1)).Pairwise (· < ·)).imp fun h => Nat.ne_of_lt h

/-- `DocSet::remap`, for every order of the mapping. -/
theorem docRemap_spec : ∀ (m : List (Nat × Option Nat)) (d : DocSet) (c : List Doc), FreshMap m (c.map Doc.row) →
    d.count.Sorted → d.count.Perm (docLens c) →
    (d.remap m).count.Sorted ∧ (d.remap m).count.Perm (docLens (remapDocs m c)) ∧ (d.remap m).total = d.total := by
  intro m
  induction m with
  | nil =>
    intro d c _ hs hp
    refine ⟨hs, ?_, rfl⟩
    have : remapDocs [] c = c := by
      unfold remapDocs
      simp only [newRow_nil, Option.map_some]
      exact List.filterMap_some
    rw [this]
    exact hp
  | cons e m ih =>
    intro d c hf hs hp
    obtain ⟨k, v⟩ := e
    have hkeys : k ∉ m.map (·.1) ∧ (m.map (·.1)).Nodup := by
      have := hf.keys
      simp only [List.map_cons, List.nodup_cons] at this
      exact this
    have hvm : ∀ r, v = some r → r ∉ m.map (·.1) := by
      rintro r rfl
      have := (hf.fresh r (List.mem_filterMap.2 ⟨_, List.mem_cons_self .., rfl⟩)).2
      simp only [List.map_cons, List.mem_cons, not_or] at this
      exact this.2
    rw [remapDocs_cons hvm]
    -- the step
    obtain ⟨d', hd', hs', hp', ht'⟩ : ∃ d' : DocSet, d.remap ((k, v) :: m) = d'.remap m ∧ d'.count.Sorted ∧
        d'.count.Perm (docLens (remapDocs [(k, v)] c)) ∧ d'.total = d.total := by
      rw [docLens_remap_one]
      have hpf := hp.filterMap (fun x => (newRow [(k, v)] x.1).map (fun r => (r, x.2)))
      cases hg : SMap.get k d.count with
      | none =>
        have hnk := (get_none_of_perm hp k).1 hg
        rw [filterMap_absent hnk]
        cases v with
        | none =>
          refine ⟨{ d with count := SMap.erase k d.count }, rfl, SMap.sorted_erase _ _ hs, ?_, rfl⟩
          have : SMap.erase k d.count = d.count := by
            unfold SMap.erase
            rw [List.filter_eq_self]
            intro a ha
            simp only [bne_iff_ne, ne_eq]
            rintro rfl
            exact hnk ((hp.map (·.1)).mem_iff.1 (List.mem_map.2 ⟨a, ha, rfl⟩))
          simp only
          rw [this]
          exact hp
        | some r =>
          refine ⟨d, ?_, hs, hp, rfl⟩
          unfold DocSet.remap
          rw [List.foldl_cons]
          simp only [hg]
      | some n =>
        have he := erase_perm hs hg
        have hnk : k ∉ (SMap.erase k d.count).map (·.1) := by
          have := (he.map (·.1)).nodup_iff.1 (sorted_keys_nodup hs)
          simp only [List.map_cons, List.nodup_cons] at this
          exact this.1
        have hpf' := (he.filterMap (fun x => (newRow [(k, v)] x.1).map (fun r => (r, x.2)))).symm.trans hpf
        rw [List.filterMap_cons, filterMap_absent hnk, newRow_cons, if_pos rfl] at hpf'
        cases v with
        | none =>
          refine ⟨{ d with count := SMap.erase k d.count }, rfl, SMap.sorted_erase _ _ hs, ?_, rfl⟩
          simpa using hpf'
        | some r =>
          refine ⟨{ d with count := SMap.insert r n (SMap.erase k d.count) }, ?_, SMap.sorted_insert _ _ _ (SMap.sorted_erase _ _ hs), ?_, rfl⟩
          · unfold DocSet.remap
            rw [List.foldl_cons]
            simp only [hg]
          · simp only [Option.map_some] at hpf'
            refine (insert_perm ?_).trans hpf'
            rw [SMap.get_eq_none_iff]
            intro hm
            have h1 : r ∈ d.count.map (·.1) := by
              obtain ⟨a, ha, hae⟩ := List.mem_map.1 hm
              exact List.mem_map.2 ⟨a, (List.mem_filter.1 ha).1, hae⟩
            have h2 := (hp.map (·.1)).mem_iff.1 h1
            unfold docLens at h2
            rw [List.map_map] at h2
            exact (hf.fresh r (List.mem_filterMap.2 ⟨_, List.mem_cons_self .., rfl⟩)).1 h2
    rw [hd']
    suffices hfm : FreshMap m ((remapDocs [(k, v)] c).map Doc.row) by
      obtain ⟨i1, i2, i3⟩ := ih d' (remapDocs [(k, v)] c) hfm hs' hp'
      exact ⟨i1, i2, i3.trans ht'⟩
    · have hvals := hf.vals
      rw [List.filterMap_cons] at hvals
      refine ⟨hkeys.2, ?_, ?_⟩
      · cases v with
        | none => exact hvals
        | some r => simp only [List.nodup_cons] at hvals; exact hvals.2
      · intro w hw
        have hw' : w ∈ ((k, v) :: m).filterMap (·.2) := by
          rw [List.filterMap_cons]
          cases v with
          | none => exact hw
          | some r => exact List.mem_cons_of_mem _ hw
        have h1 := hf.fresh w hw'
        simp only [List.map_cons, List.mem_cons, not_or] at h1
        refine ⟨?_, h1.2.2⟩
        intro hm
        obtain ⟨d1, hd1, rfl⟩ := List.mem_map.1 hm
        obtain ⟨d2, hd2, he⟩ := List.mem_filterMap.1 hd1
        cases hn : newRow [(k, v)] d2.row with
        | none => rw [hn] at he; cases he
        | some r =>
          rw [hn] at he
          simp only [Option.map_some, Option.some.injEq] at he
          subst he
          simp only at hw h1
          rcases newRow_mem hn with ⟨h3, _⟩ | h3
          · subst h3
            exact h1.1 (List.mem_map.2 ⟨d2, hd2, rfl⟩)
          · simp only [List.mem_singleton, Prod.mk.injEq] at h3
            rw [← h3.2] at hvals
            simp only [List.nodup_cons] at hvals
            exact hvals.1 hw

theorem sum_remap_le (m : List (Nat × Option Nat)) (c : List Doc) :
    ((docLens (remapDocs m c)).map (·.2)).sum ≤ ((docLens c).map (·.2)).sum := by
  induction c with
  | nil => exact Nat.le_refl _
  | cons d c ih =>
    unfold docLens remapDocs at ih ⊢
    rw [List.filterMap_cons]
    cases newRow m d.row with
    | none => simp only [Option.map_none, List.map_cons, List.sum_cons]; omega
    | some r => simp only [Option.map_some, List.map_cons, List.sum_cons]; omega

theorem Rep.remap {wt : Nat → Nat → Nat → Nat → Nat → Nat} {withPos : Bool} {x : Index} {c : List Doc} {m : List (Nat × Option Nat)}
    (hmono : Mono wt) (hr : Rep wt withPos x c) (hnd : (c.map Doc.row).Nodup) (hf : FreshMap m (c.map Doc.row)) :
    Rep wt withPos (Verif.Fts.remap wt m x) (remapDocs m c) := by
  generalize hx' : Verif.Fts.remap wt m x = x'
  obtain ⟨d1, d2, d3⟩ := docRemap_spec m x.docs c hf hr.doc_sorted hr.docs
  generalize hdocs : x.docs.remap m = docs' at d1 d2 d3
  generalize hlists : (List.range x.tokens.nextId).map (fun id => toBatch (remapList m (x.batch id))) = lists
  generalize hw : lists.map (fun l => (l, maxScore wt docs' l)) = ws
  have hxe : x' = {
      tokens := TokenSet.load x.tokens.map, file := (writeLists ws).2.2,
      offsets := (writeLists ws).1, maxScores := (writeLists ws).2.1, docs := DocSet.load docs'.count } := by
    rw [← hx', ← hw, ← hlists, ← hdocs]
    rfl
  have hmap : x'.tokens.map = x.tokens.map := by rw [hxe]; rfl
  have hol : x'.offsets.length = x.offsets.length := by
    rw [hxe]
    simp only [writeLists_eq, List.length_map, List.length_range]
    rw [← hw, ← hlists]
    simp [hr.next]
  have hws : ∀ (i : Nat), i < x.offsets.length → ws[i]? = some (toBatch (remapList m (x.batch i)), maxScore wt docs' (toBatch (remapList m (x.batch i)))) := by
    intro i hi
    rw [← hw, ← hlists, List.getElem?_map, List.getElem?_map, List.getElem?_range (by rw [hr.next]; exact hi)]
    rfl
  have hbatch : ∀ i, i < x.offsets.length → x'.batch i = toBatch (remapList m (x.batch i)) :=
    fun i hi => batch_written ws x' (by rw [hxe]) (by rw [hxe]) (hws i hi)
  have hcount : x'.docs.count = docs'.count := by rw [hxe]; rfl
  have htotal : x'.docs.total = ((docLens (remapDocs m c)).map (·.2)).sum := by
    rw [hxe]
    exact sum_count d2
  have hle : x'.docs.total ≤ docs'.total := by
    rw [htotal, d3, hr.total]
    exact sum_remap_le m c
  have hids : ∀ t i, SMap.get t x'.tokens.map = some i → i < x'.offsets.length := by
    intro t i h
    rw [hmap] at h
    rw [hol]
    exact hr.ids t i h
  have hsurj : ∀ i < x'.offsets.length, ∃ t, SMap.get t x'.tokens.map = some i := by
    intro i hi
    rw [hol] at hi
    rw [hmap]
    exact hr.surj i hi
  refine ⟨?_, ?_, hids, ?_, hsurj, ?_, ?_, ?_, ?_, htotal, ?_⟩
  · rw [hmap]; exact hr.tok_sorted
  · have e : x'.tokens = TokenSet.load x'.tokens.map := by rw [hxe]; rfl
    rw [e]
    exact load_nextId (by rw [hmap]; exact hr.tok_sorted) hids hsurj
  · intro t t' i h h'
    rw [hmap] at h h'
    exact hr.inj t t' i h h'
  · intro t i h
    rw [hmap] at h
    rw [hbatch i (hr.ids t i h)]
    have hp : (remapList m (x.batch i)).Perm (docEntries withPos t (remapDocs m c)) := by
      rw [docEntries_remap, remapList_eq, remapList_eq]
      exact (hr.post t i h).2.filterMap _
    exact ⟨toBatch_strict (rows_nodup (remap_rows_nodup hf hnd) hp), (sortBy_perm _ _).trans hp⟩
  · intro t h
    rw [hmap] at h
    rw [docEntries_remap, hr.absent t h]
    rfl
  · rw [hcount]; exact d1
  · rw [hcount]; exact d2
  · intro i hi
    rw [hol] at hi
    refine ⟨maxScore wt docs' (toBatch (remapList m (x.batch i))), ?_, ?_⟩
    · rw [hxe]
      simp only [writeLists_eq]
      rw [List.getElem?_map, hws i hi]
      rfl
    · intro e he
      rw [hbatch i hi] at he ⊢
      have : x'.docs.numTokens e.row = docs'.numTokens e.row := by unfold DocSet.numTokens; rw [hcount]
      rw [hcount, this]
      exact Nat.le_trans (hmono _ _ _ _ _ _ hle) (le_maxScore he)

end Verif.Fts
