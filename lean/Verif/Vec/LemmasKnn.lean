import Verif.Vec.LemmasSearch
namespace Verif.Vec
variable {V C : Type}

/-- The candidates of the scan of the fragments that are not covered. -/
def newCands (q : Query) (m : Dist V C) (s : State V C) (ds : List (Delta C)) : List (Addr × Nat) :=
  candsOf q m (q.filterRows ((unindexed s.frags ds).flatMap Frag.scan))

theorem mem_filterRows {q : Query} {rows : List (Addr × Option V)} {r : Addr × Option V} :
    r ∈ q.filterRows rows ↔ r ∈ rows ∧ q.filter.all (fun p => p r.1) = true := by
  unfold Query.filterRows
  cases hf : q.filter with
  | none => simp
  | some p => simp [List.mem_filter]

theorem filterRows_sublist (q : Query) (rows : List (Addr × Option V)) : (q.filterRows rows).Sublist rows := by
  unfold Query.filterRows
  cases hf : q.filter with
  | none => exact List.Sublist.refl _
  | some p => exact List.filter_sublist

theorem covered_false {ds : List (Delta C)} {i : Nat} : covered ds i = false ↔ ∀ d ∈ ds, i ∉ d.bitmap := by
  unfold covered
  simp only [List.contains_eq_mem, decide_eq_false_iff_not, List.mem_flatMap, not_exists, not_and]

theorem mem_newCands {q : Query} {m : Dist V C} {s : State V C} (hi : Ids s.frags) {ds : List (Delta C)} {x : Addr × Nat} :
    x ∈ newCands q m s ds ↔ ∃ v, lookup s.frags x.1 = some (some v) ∧ covered ds x.1.1 = false ∧ q.filter.all (fun p => p x.1) = true ∧
      x.2 = m.dist v ∧ q.inRange x.2 = true := by
  unfold newCands
  rw [mem_candsOf]
  constructor
  · rintro ⟨v, h1, h2, h3⟩
    obtain ⟨h4, h5⟩ := mem_filterRows.1 h1
    obtain ⟨f, hf, hs⟩ := List.mem_flatMap.1 h4
    obtain ⟨hfm, hfb⟩ := not_mem_unindexed.1 hf
    refine ⟨v, (lookup_iff hi).2 ⟨f, hfm, hs⟩, ?_, h5, h2, h3⟩
    rw [covered_false, (mem_scan.1 hs).1]
    exact hfb
  · rintro ⟨v, h1, h2, h3, h4, h5⟩
    obtain ⟨f, hf, hs⟩ := (lookup_iff hi).1 h1
    rw [covered_false, (mem_scan.1 hs).1] at h2
    exact ⟨v, mem_filterRows.2 ⟨List.mem_flatMap.2 ⟨f, not_mem_unindexed.2 ⟨hf, h2⟩, hs⟩, h3⟩, h4, h5⟩

theorem newCands_nodup {q : Query} {m : Dist V C} {s : State V C} (hi : Ids s.frags) {ds : List (Delta C)} : ((newCands q m s ds).map Prod.fst).Nodup := by
  apply candsOf_nodup
  refine ((filterRows_sublist q _).map Prod.fst).nodup (flatScan_nodup (ids_sub hi List.filter_sublist))

/-- The search with an index that stores the vectors: the nearest of the probed and the new rows. -/
theorem knn_flat (srt : Srt) (q : Query) (m : Dist V C) {s : State V C} (h : Inv true s) {c : Cfg V C} {ds : List (Delta C)} (hix : s.index = some (c, ds))
    (hu : q.useIndex = true) (hr : q.refine ≠ some 0) (hflat : Flat c m) :
    ∃ r, knn srt q m s = some r ∧
      Nearest q.k ((if q.fast then [] else newCands q m s ds) ++ indexCands q m s.frags (findPartitions srt q m c.nparts) ds) r := by
  obtain ⟨_, hd, _⟩ := h.index c ds hix
  obtain ⟨l, u, h1, h2, h3, h4⟩ := ann_spec srt q m hd
  have hk : q.k ≤ q.k * q.refine.getD 1 := by
    have : 1 ≤ q.refine.getD 1 := by
      cases hq : q.refine with
      | none => exact Nat.le_refl _
      | some n =>
        cases n with
        | zero => exact absurd hq hr
        | succ n => exact Nat.succ_le_succ (Nat.zero_le _)
    exact Nat.le_mul_of_pos_right _ this
  have hsuff : Suff q.k (l.take (q.k * q.refine.getD 1)) (indexCands q m s.frags (findPartitions srt q m c.nparts) ds) :=
    ((Suff.take h2 h3).trans h4).mono hk
  have hgood : ∀ x ∈ indexCands q m s.frags (findPartitions srt q m c.nparts) ds, ∃ v, lookup s.frags x.1 = some (some v) ∧ x.2 = m.dist v ∧ q.inRange x.2 = true := by
    intro x hx
    obtain ⟨d, _, _, v, e1, _, _, e2, e3⟩ := mem_indexCands h.ids hd hx
    refine ⟨v, e1, ?_, e2⟩
    rcases e3 with e | ⟨_, e⟩
    · rw [e, hflat.fresh]
    · rw [e, hflat.raw]
  have href : ∃ refined, refined = (if q.refine.isSome then flatKnn srt q m (takeVec s.frags ((l.take (q.k * q.refine.getD 1)).map Prod.fst)) else l.take (q.k * q.refine.getD 1)) ∧
      Suff q.k refined (indexCands q m s.frags (findPartitions srt q m c.nparts) ds) ∧ Nearest q.k (indexCands q m s.frags (findPartitions srt q m c.nparts) ds) refined := by
    refine ⟨_, rfl, ?_⟩
    by_cases hs : q.refine.isSome = true
    · rw [if_pos hs]
      have he : candsOf q m (takeVec s.frags ((l.take (q.k * q.refine.getD 1)).map Prod.fst)) = l.take (q.k * q.refine.getD 1) :=
        candsOf_takeVec (fun x hx => hgood x (hsuff.sub hx))
      refine ⟨?_, flatKnn_nearest srt q m _ (by rw [he]; exact hsuff)⟩
      have := flatKnn_suff srt q m (takeVec s.frags ((l.take (q.k * q.refine.getD 1)).map Prod.fst))
      rw [he] at this
      exact this.trans hsuff
    · rw [if_neg hs]
      refine ⟨hsuff, ?_⟩
      have hn : q.refine = none := by
        cases hq : q.refine with
        | none => rfl
        | some n => rw [hq] at hs; exact absurd rfl hs
      rw [hn] at h4 ⊢
      simp only [Option.getD_none, Nat.mul_one] at h4 ⊢
      exact Suff.nearest h2 h3 h4
  obtain ⟨refined, hre, hrs, hrn⟩ := href
  unfold knn
  rw [hu]
  simp only [if_true]
  rw [hix]
  simp only
  rw [if_neg hr, h1]
  simp only
  rw [← hre]
  by_cases hstop : (q.fast || (unindexed s.frags ds).isEmpty) = true
  · rw [if_pos hstop]
    refine ⟨refined, rfl, ?_⟩
    have : (if q.fast then [] else newCands q m s ds) = [] := by
      rw [Bool.or_eq_true] at hstop
      cases hf : q.fast with
      | true => rfl
      | false =>
        rw [hf] at hstop
        have he : unindexed s.frags ds = [] := by
          rcases hstop with e | e
          · cases e
          · exact List.isEmpty_iff.1 e
        unfold newCands
        rw [he]
        unfold Query.filterRows candsOf
        cases q.filter <;> rfl
    rw [this]
    exact hrn
  · rw [if_neg hstop]
    refine ⟨_, rfl, ?_⟩
    rw [Bool.not_eq_true, Bool.or_eq_false_iff] at hstop
    rw [hstop.1]
    simp only [Bool.false_eq_true, if_false]
    have hap := flatKnn_suff srt q m (q.filterRows ((unindexed s.frags ds).flatMap Frag.scan))
    apply flatKnn_nearest
    rw [candsOf_takeVec]
    · exact hap.append hrs
    · intro x hx
      rcases List.mem_append.1 hx with hx | hx
      · obtain ⟨v, e1, _, _, e2, e3⟩ := (mem_newCands h.ids).1 (show x ∈ newCands q m s ds from hap.sub hx)
        exact ⟨v, e1, e2, e3⟩
      · exact hgood x (hrs.sub hx)

/-- What the search finds, whatever the codes are. -/
theorem knn_sound (srt : Srt) (q : Query) (m : Dist V C) {s : State V C} (h : Inv true s) (hr : q.refine ≠ some 0) :
    ∃ r, knn srt q m s = some r ∧ (r.map Prod.fst).Nodup ∧ (r.map Prod.snd).Pairwise (· ≤ ·) ∧ r.length ≤ q.k ∧
      ∀ x ∈ r, ∃ v, lookup s.frags x.1 = some (some v) ∧ q.filter.all (fun p => p x.1) = true ∧ q.inRange x.2 = true ∧ (q.refine.isSome = true → x.2 = m.dist v) := by
  have flat : ∀ rows : List (Addr × Option V), (rows.map Prod.fst).Nodup → (∀ r ∈ rows, lookup s.frags r.1 = some r.2 ∧ q.filter.all (fun p => p r.1) = true) →
      ((flatKnn srt q m rows).map Prod.fst).Nodup ∧ ((flatKnn srt q m rows).map Prod.snd).Pairwise (· ≤ ·) ∧ (flatKnn srt q m rows).length ≤ q.k ∧
      ∀ x ∈ flatKnn srt q m rows, ∃ v, lookup s.frags x.1 = some (some v) ∧ q.filter.all (fun p => p x.1) = true ∧ q.inRange x.2 = true ∧ x.2 = m.dist v := by
    intro rows hn hrows
    have hs := flatKnn_suff srt q m rows
    obtain ⟨l, e1, e2, e3⟩ := flatKnn_eq srt q m rows
    refine ⟨hs.nodup (candsOf_nodup hn), ?_, ?_, ?_⟩
    · rw [e1, List.pairwise_map]
      exact List.Pairwise.sublist (List.take_sublist _ _) e2
    · rw [e1]
      exact List.length_take_le _ _
    · intro x hx
      obtain ⟨v, f1, f2, f3⟩ := mem_candsOf.1 (hs.sub hx)
      obtain ⟨g1, g2⟩ := hrows _ f1
      exact ⟨v, g1, g2, f3, f2⟩
  have weaken : ∀ r : List (Addr × Nat), ((r.map Prod.fst).Nodup ∧ (r.map Prod.snd).Pairwise (· ≤ ·) ∧ r.length ≤ q.k ∧
      ∀ x ∈ r, ∃ v, lookup s.frags x.1 = some (some v) ∧ q.filter.all (fun p => p x.1) = true ∧ q.inRange x.2 = true ∧ x.2 = m.dist v) →
      ((r.map Prod.fst).Nodup ∧ (r.map Prod.snd).Pairwise (· ≤ ·) ∧ r.length ≤ q.k ∧
      ∀ x ∈ r, ∃ v, lookup s.frags x.1 = some (some v) ∧ q.filter.all (fun p => p x.1) = true ∧ q.inRange x.2 = true ∧ (q.refine.isSome = true → x.2 = m.dist v)) := by
    rintro r ⟨a, b, c, d⟩
    refine ⟨a, b, c, ?_⟩
    intro x hx
    obtain ⟨v, e1, e2, e3, e4⟩ := d x hx
    exact ⟨v, e1, e2, e3, fun _ => e4⟩
  unfold knn
  cases hq : (if q.useIndex then s.index else none) with
  | none =>
    refine ⟨_, rfl, weaken _ (flat _ ?_ ?_)⟩
    · rw [filterScan_eq]
      exact (List.filter_sublist.map Prod.fst).nodup (flatScan_nodup h.ids)
    · intro r hm
      rw [filterScan_eq] at hm
      obtain ⟨h1, h2⟩ := List.mem_filter.1 hm
      obtain ⟨f, hf, hs⟩ := List.mem_flatMap.1 h1
      rw [Bool.and_eq_true] at h2
      exact ⟨(lookup_iff h.ids).2 ⟨f, hf, hs⟩, h2.2⟩
  | some cd =>
    obtain ⟨c, ds⟩ := cd
    have hix : s.index = some (c, ds) := by
      cases hu : q.useIndex with
      | true => rw [hu] at hq; exact hq
      | false => rw [hu] at hq; cases hq
    obtain ⟨_, hd, _⟩ := h.index c ds hix
    obtain ⟨l, u, h1, h2, h3, h4⟩ := ann_spec srt q m hd
    simp only
    rw [if_neg hr, h1]
    simp only
    have hsuff : Suff (q.k * q.refine.getD 1) (l.take (q.k * q.refine.getD 1)) (indexCands q m s.frags (findPartitions srt q m c.nparts) ds) := (Suff.take h2 h3).trans h4
    have hnod := hsuff.nodup (indexCands_nodup h.ids hd (probes_nodup srt q m c.nparts))
    have hgood : ∀ x ∈ l.take (q.k * q.refine.getD 1), ∃ d ∈ ds, x.1.1 ∈ d.bitmap ∧ ∃ v, lookup s.frags x.1 = some (some v) ∧ q.filter.all (fun p => p x.1) = true ∧ q.inRange x.2 = true := by
      intro x hx
      obtain ⟨d, hdm, hb, v, e1, _, e2, e3, _⟩ := mem_indexCands h.ids hd (hsuff.sub hx)
      exact ⟨d, hdm, hb, v, e1, e2.1, e3⟩
    have hann : ((l.take (q.k * q.refine.getD 1)).map Prod.fst).Nodup := hnod
    have href : ∃ refined, refined = (if q.refine.isSome then flatKnn srt q m (takeVec s.frags ((l.take (q.k * q.refine.getD 1)).map Prod.fst)) else l.take (q.k * q.refine.getD 1)) ∧
        (∀ x ∈ refined, x.1 ∈ (l.take (q.k * q.refine.getD 1)).map Prod.fst) ∧
        ((refined.map Prod.fst).Nodup ∧ (refined.map Prod.snd).Pairwise (· ≤ ·) ∧ refined.length ≤ q.k ∧
          ∀ x ∈ refined, ∃ v, lookup s.frags x.1 = some (some v) ∧ q.filter.all (fun p => p x.1) = true ∧ q.inRange x.2 = true ∧ (q.refine.isSome = true → x.2 = m.dist v)) := by
      refine ⟨_, rfl, ?_⟩
      by_cases hs : q.refine.isSome = true
      · rw [if_pos hs]
        refine ⟨?_, weaken _ (flat _ (takeVec_nodup hann) ?_)⟩
        · intro x hx
          obtain ⟨v, e, _⟩ := mem_candsOf.1 ((flatKnn_suff srt q m _).sub hx)
          exact (mem_takeVec e).1
        · intro r hm
          obtain ⟨e1, e2⟩ := mem_takeVec hm
          refine ⟨e2, ?_⟩
          obtain ⟨x, hx, hxe⟩ := List.mem_map.1 e1
          obtain ⟨_, _, _, _, _, hfil, _⟩ := hgood x hx
          rw [← hxe]
          exact hfil
      · rw [if_neg hs]
        refine ⟨fun x hx => List.mem_map_of_mem hx, hann, ?_, ?_, ?_⟩
        · rw [List.pairwise_map]
          exact List.Pairwise.sublist (List.take_sublist _ _) h2
        · have hn : q.refine = none := by
            cases hq : q.refine with
            | none => rfl
            | some n => rw [hq] at hs; exact absurd rfl hs
          rw [hn]
          simp only [Option.getD_none, Nat.mul_one]
          exact List.length_take_le _ _
        · intro x hx
          obtain ⟨_, _, _, v, e1, e2, e3⟩ := hgood x hx
          exact ⟨v, e1, e2, e3, fun e => absurd e hs⟩
    obtain ⟨refined, hre, hrin, hrprops⟩ := href
    rw [← hre]
    by_cases hstop : (q.fast || (unindexed s.frags ds).isEmpty) = true
    · rw [if_pos hstop]
      exact ⟨refined, rfl, hrprops⟩
    · rw [if_neg hstop]
      refine ⟨_, rfl, weaken _ (flat _ (takeVec_nodup ?_) ?_)⟩
      · rw [List.map_append, List.nodup_append]
        refine ⟨(flatKnn_suff srt q m _).nodup (newCands_nodup h.ids (ds := ds)), hrprops.1, ?_⟩
        intro a ha b hb e
        subst e
        obtain ⟨x, hx, hxe⟩ := List.mem_map.1 ha
        obtain ⟨y, hy, hye⟩ := List.mem_map.1 hb
        obtain ⟨_, _, hnc, _⟩ := (mem_newCands h.ids).1 (show x ∈ newCands q m s ds from (flatKnn_suff srt q m _).sub hx)
        obtain ⟨z, hz, hze⟩ := List.mem_map.1 (hrin y hy)
        obtain ⟨d, hdm, hdb, _⟩ := hgood z hz
        rw [covered_false] at hnc
        apply hnc d hdm
        rw [hxe, ← hye, ← hze]
        exact hdb
      · intro r hm
        obtain ⟨e1, e2⟩ := mem_takeVec hm
        refine ⟨e2, ?_⟩
        rw [List.map_append, List.mem_append] at e1
        rcases e1 with e1 | e1
        · obtain ⟨x, hx, hxe⟩ := List.mem_map.1 e1
          obtain ⟨_, _, _, hfil, _⟩ := (mem_newCands h.ids).1 (show x ∈ newCands q m s ds from (flatKnn_suff srt q m _).sub hx)
          rw [← hxe]
          exact hfil
        · obtain ⟨x, hx, hxe⟩ := List.mem_map.1 e1
          obtain ⟨_, _, hfil, _⟩ := hrprops.2.2.2 x hx
          rw [← hxe]
          exact hfil

end Verif.Vec
