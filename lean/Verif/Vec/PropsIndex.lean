import Verif.Vec.LemmasEntries
/-!
# C77: what a vector index holds
-/
namespace Verif.Vec
variable {V C : Type}

/-! ### The fragments of a history -/

/-- Fragment ids are never used twice. -/
theorem run_ids : ∀ (ops : List (Op V C)) (s : State V C), Ids s.frags → (∀ f ∈ s.frags, f.id < s.next) →
    Ids (s.run ops).frags ∧ ∀ f ∈ (s.run ops).frags, f.id < (s.run ops).next := by
  intro ops
  induction ops with
  | nil => intro s h1 h2; exact ⟨h1, h2⟩
  | cons op ops ih =>
    intro s h1 h2
    have hnone : Inv true ({ s with index := none } : State V C) := ⟨h1, h2, by intro c ds h; cases h⟩
    have hstep : Ids ((s.step op).getD s).frags ∧ ∀ f ∈ ((s.step op).getD s).frags, f.id < ((s.step op).getD s).next := by
      cases hs : s.step op with
      | none => exact ⟨h1, h2⟩
      | some s' =>
        show Ids s'.frags ∧ ∀ f ∈ s'.frags, f.id < s'.next
        cases op with
        | append rows =>
          cases hs
          exact ⟨(hnone.append rows).ids, (hnone.append rows).below⟩
        | delete p =>
          cases hs
          exact ⟨(hnone.delete p).ids, (hnone.delete p).below⟩
        | create c =>
          have hs : s.create c = some s' := hs
          unfold State.create at hs
          cases hb : c.build s.frags [] none with
          | none => rw [hb] at hs; cases hs
          | some x => rw [hb] at hs; cases hs; exact ⟨h1, h2⟩
        | optimize n =>
          have hs : s.optimize n = some s' := hs
          unfold State.optimize at hs
          cases hix : s.index with
          | none => rw [hix] at hs; cases hs; exact ⟨h1, h2⟩
          | some cd =>
            rw [hix] at hs
            simp only at hs
            split at hs
            · cases hs
            · cases hs; exact ⟨h1, h2⟩
        | compact ids =>
          have hs : s.compact ids = some s' := hs
          have hc : ∃ t, ({ s with index := none } : State V C).compact ids = some t ∧ t.frags = s'.frags ∧ t.next = s'.next := by
            unfold State.compact at hs ⊢
            simp only at hs ⊢
            by_cases hg : (s.frags.filter (fun f => ids.contains f.id)).isEmpty = true
            · rw [if_pos hg] at hs ⊢
              cases hs
              exact ⟨_, rfl, rfl, rfl⟩
            · rw [if_neg hg] at hs ⊢
              obtain ⟨ix, _, hs⟩ := Option.map_eq_some_iff.1 hs
              subst hs
              exact ⟨_, rfl, rfl, rfl⟩
          obtain ⟨t, ht, e1, e2⟩ := hc
          have := hnone.compact ht
          rw [← e1, ← e2]
          exact ⟨this.ids, this.below⟩
    exact ih _ hstep.1 hstep.2

theorem init_ids (ops : List (Op V C)) : Ids ((State.init V C).run ops).frags :=
  (run_ids ops (State.init V C) List.nodup_nil (by intro f hf; cases hf)).1

/-- The invariant of a history. -/
theorem reach {ops : List (Op V C)} (hf : Fresh (State.init V C) ops) : Inv true ((State.init V C).run ops) := Inv.run Inv.init hf (Or.inl rfl)

/-! ### What the index holds -/

/-- C77: whatever happened, a live row with a vector is exactly once in the index if its fragment is covered. -/
def C77_statement : Prop :=
  ∀ (V C : Type) (ops : List (Op V C)), Trained ops → ∀ c ds, ((State.init V C).run ops).index = some (c, ds) →
    ∀ a v, lookup ((State.init V C).run ops).frags a = some (some v) → covered ds a.1 = true → occurrences ds a = 1

/-- C77, for histories where `optimize_indices` is only called when a fragment is not covered yet. -/
theorem C77_row_once_partial (ops : List (Op V C)) (hf : Fresh (State.init V C) ops) (c : Cfg V C) (ds : List (Delta C))
    (hix : ((State.init V C).run ops).index = some (c, ds)) (a : Addr) (v : V)
    (hl : lookup ((State.init V C).run ops).frags a = some (some v)) (hc : covered ds a.1 = true) : occurrences ds a = 1 :=
  ((reach hf).index c ds hix).2.1.row_once hl hc

/-- A row is in the partition of its vector. -/
theorem C77_row_partition_partial (ops : List (Op V C)) (hf : Fresh (State.init V C) ops) (c : Cfg V C) (ds : List (Delta C))
    (hix : ((State.init V C).run ops).index = some (c, ds)) (d : Delta C) (hd : d ∈ ds) (e : Nat × Addr × C) (he : e ∈ d.file.entries) (v : V)
    (hl : lookup ((State.init V C).run ops).frags e.2.1 = some (some v)) : e.1 = c.pid v := by
  obtain ⟨parts, hok⟩ := ((reach hf).index c ds hix).2.1.1 d hd
  obtain ⟨rows, h1, h2⟩ := (mem_entries hok.file).1 he
  obtain ⟨v', hv, hp, _⟩ := hok.sound _ rows h1 _ h2 _ hl
  cases hv
  exact hp.symm

/-- Rows with a null vector and rows of fragments that are not covered are not in the index. -/
theorem C77_other_rows_partial (ops : List (Op V C)) (hf : Fresh (State.init V C) ops) (c : Cfg V C) (ds : List (Delta C))
    (hix : ((State.init V C).run ops).index = some (c, ds)) (a : Addr)
    (h : lookup ((State.init V C).run ops).frags a = some none ∨ covered ds a.1 = false) : occurrences ds a = 0 :=
  ((reach hf).index c ds hix).2.1.no_row h

/-- The entries of a delta are of fragments in its bitmap (those the prefilter knows the deletions of), and in its partitions. -/
theorem C77_entries_covered_partial (ops : List (Op V C)) (hf : Fresh (State.init V C) ops) (c : Cfg V C) (ds : List (Delta C))
    (hix : ((State.init V C).run ops).index = some (c, ds)) (d : Delta C) (hd : d ∈ ds) (e : Nat × Addr × C) (he : e ∈ d.file.entries) :
    e.2.1.1 ∈ d.bitmap ∧ e.1 < c.nparts := by
  obtain ⟨parts, hok⟩ := ((reach hf).index c ds hix).2.1.1 d hd
  obtain ⟨rows, h1, h2⟩ := (mem_entries hok.file).1 he
  refine ⟨hok.bitmap _ rows h1 _ h2, ?_⟩
  rw [← hok.nparts]
  exact (List.getElem?_eq_some_iff.1 h1).1

/-- After `optimize_indices` all fragments are covered. -/
theorem C77_optimize_covers (s s' : State V C) (n : Nat) (h : s.optimize n = some s') (c : Cfg V C) (ds : List (Delta C)) (hix : s'.index = some (c, ds)) :
    ∀ f ∈ s'.frags, covered ds f.id = true := by
  unfold State.optimize at h
  cases hs : s.index with
  | none => rw [hs] at h; cases h; rw [hs] at hix; cases hix
  | some cd =>
    obtain ⟨c0, ds0⟩ := cd
    rw [hs] at h
    simp only at h
    split at h
    · cases h
    · rename_i x _
      cases h
      cases hix
      intro f hf
      unfold covered
      simp only [List.contains_eq_mem, decide_eq_true_eq]
      rw [List.flatMap_append, List.mem_append]
      by_cases hu : f ∈ unindexed s.frags ds0
      · right
        simp only [List.flatMap_cons, List.flatMap_nil, List.append_nil]
        exact List.mem_append_left _ (List.mem_map_of_mem hu)
      · have hcov : ∃ d ∈ ds0, f.id ∈ d.bitmap := by
          apply Classical.byContradiction
          intro hno
          exact hu (not_mem_unindexed.2 ⟨hf, fun d hd hb => hno ⟨d, hd, hb⟩⟩)
        obtain ⟨d, hd, hb⟩ := hcov
        rw [← List.take_append_drop (ds0.length - n) ds0] at hd
        rcases List.mem_append.1 hd with hd | hd
        · exact Or.inl (List.mem_flatMap.2 ⟨d, hd, hb⟩)
        · right
          simp only [List.flatMap_cons, List.flatMap_nil, List.append_nil]
          exact List.mem_append_right _ (List.mem_flatMap.2 ⟨d, hd, hb⟩)

/-! ### When building, optimizing and compacting succeed -/

theorem vectorsOf_ne_nil {frags : List (Frag V)} (hi : Ids frags) : vectorsOf frags ≠ [] ↔ ∃ a v, lookup frags a = some (some v) := by
  constructor
  · intro h
    obtain ⟨x, hx⟩ := List.exists_mem_of_ne_nil _ h
    exact ⟨x.1, x.2, (mem_vectorsOf hi).1 hx⟩
  · rintro ⟨a, v, h⟩ e
    have := (mem_vectorsOf hi).2 h
    rw [e] at this
    cases this

/-- An index can be built iff some live row has a vector. -/
theorem C77_create_succeeds (ops : List (Op V C)) (c : Cfg V C) (hc : c.Valid) :
    (∃ s', ((State.init V C).run ops).create c = some s') ↔ ∃ a v, lookup ((State.init V C).run ops).frags a = some (some v) := by
  have hi := init_ids ops
  have hd : Deltas true c ((State.init V C).run ops).frags [] := ⟨(by intro d hd; cases hd), List.Pairwise.nil⟩
  rw [← vectorsOf_ne_nil hi]
  have := build_some_iff hc hi (un := ((State.init V C).run ops).frags) hd (data := none) rfl
  constructor
  · rintro ⟨s', h⟩
    unfold State.create at h
    cases hb : c.build ((State.init V C).run ops).frags [] none with
    | none => rw [hb] at h; cases h
    | some x =>
      rcases (this.1 ⟨x, hb⟩).2 with h | ⟨d, hd, _⟩
      · exact h
      · cases hd
  · intro h
    obtain ⟨x, hx⟩ := this.2 ⟨(by intro d hd; cases hd), Or.inl h⟩
    unfold State.create
    rw [show c.build ((State.init V C).run ops).frags [] none = some x from hx]
    exact ⟨_, rfl⟩

/-- `optimize_indices` should succeed when there is a new row with a vector. -/
def C77_optimize_statement : Prop :=
  ∀ (V C : Type) (ops : List (Op V C)), Fresh (State.init V C) ops → ∀ c ds, ((State.init V C).run ops).index = some (c, ds) →
    (∃ a v, lookup ((State.init V C).run ops).frags a = some (some v) ∧ covered ds a.1 = false) →
    ∀ n, ∃ s', ((State.init V C).run ops).optimize n = some s'

/-- It succeeds iff no row of the merged deltas was deleted, and there is a row at all. -/
theorem C77_optimize_succeeds_partial (ops : List (Op V C)) (hf : Fresh (State.init V C) ops) (c : Cfg V C) (ds : List (Delta C))
    (hix : ((State.init V C).run ops).index = some (c, ds)) (n : Nat) (hne : unindexed ((State.init V C).run ops).frags ds ≠ []) :
    (∃ s', ((State.init V C).run ops).optimize n = some s') ↔
      (∀ d ∈ ds.drop (ds.length - n), ∀ e ∈ d.file.entries, ∃ w, lookup ((State.init V C).run ops).frags e.2.1 = some w) ∧
      ((∃ a v, lookup ((State.init V C).run ops).frags a = some (some v) ∧ covered ds a.1 = false) ∨ ∃ d ∈ ds.drop (ds.length - n), d.file.entries ≠ []) := by
  have hinv := reach hf
  obtain ⟨hc, hd, _⟩ := hinv.index c ds hix
  have hdrop : Deltas true c ((State.init V C).run ops).frags (ds.drop (ds.length - n)) :=
    ⟨fun d hm => hd.1 d (List.mem_of_mem_drop hm), List.Pairwise.sublist (List.drop_sublist _ _) hd.2⟩
  have hsub : (unindexed ((State.init V C).run ops).frags ds).Sublist ((State.init V C).run ops).frags := List.filter_sublist
  have hkey := build_some_iff hc hinv.ids (un := unindexed ((State.init V C).run ops).frags ds) hdrop
    (data := some (vectorsOf (unindexed ((State.init V C).run ops).frags ds))) rfl
  rw [vectorsOf_ne_nil (ids_sub hinv.ids hsub)] at hkey
  have hun : (∃ a v, lookup (unindexed ((State.init V C).run ops).frags ds) a = some (some v)) ↔
      ∃ a v, lookup ((State.init V C).run ops).frags a = some (some v) ∧ covered ds a.1 = false := by
    have hcov : ∀ a : Addr, ∀ v : V, lookup ((State.init V C).run ops).frags a = some (some v) →
        (a.1 ∈ (unindexed ((State.init V C).run ops).frags ds).map Frag.id ↔ covered ds a.1 = false) := by
      intro a v hl
      obtain ⟨f, hfm, hs⟩ := (lookup_iff hinv.ids).1 hl
      rw [(mem_scan.1 hs).1]
      unfold covered
      constructor
      · intro h
        obtain ⟨g, hg, he⟩ := List.mem_map.1 h
        rw [← he]
        simpa using (List.mem_filter.1 hg).2
      · intro h
        exact List.mem_map_of_mem (List.mem_filter.2 ⟨hfm, by rw [h]; rfl⟩)
    constructor
    · rintro ⟨a, v, h⟩
      obtain ⟨h1, h2⟩ := (lookup_sub hinv.ids hsub).1 h
      exact ⟨a, v, h1, (hcov a v h1).1 h2⟩
    · rintro ⟨a, v, h1, h2⟩
      exact ⟨a, v, (lookup_sub hinv.ids hsub).2 ⟨h1, (hcov a v h1).2 h2⟩⟩
  rw [hun] at hkey
  rw [← hkey]
  unfold State.optimize
  rw [hix]
  simp only
  rw [if_neg (by rw [List.isEmpty_iff]; exact hne)]
  constructor
  · rintro ⟨s', h⟩
    split at h
    · cases h
    · rename_i x hx
      exact ⟨x, hx⟩
  · rintro ⟨x, hx⟩
    rw [hx]
    exact ⟨_, rfl⟩

/-- A compaction of fragments that an index covers should succeed when a row with a vector stays. -/
def C77_compact_statement : Prop :=
  ∀ (V C : Type) (ops : List (Op V C)), Fresh (State.init V C) ops → ∀ c ds, ((State.init V C).run ops).index = some (c, ds) →
    ∀ ids, (∀ d ∈ ds, ∀ f ∈ ((State.init V C).run ops).frags, f.id ∈ ids → f.id ∈ d.bitmap) →
      (∃ a v, lookup ((State.init V C).run ops).frags a = some (some v) ∧ a.1 ∈ ids) →
      ∃ s', ((State.init V C).run ops).compact ids = some s'

/-- It succeeds iff every delta covers all of the compacted fragments or none, and in the first case has no partition id column in its file and keeps a
row. -/
theorem C77_compact_succeeds_partial (ops : List (Op V C)) (hf : Fresh (State.init V C) ops) (c : Cfg V C) (ds : List (Delta C))
    (hix : ((State.init V C).run ops).index = some (c, ds)) (ids : List Nat) (hne : ∃ f ∈ ((State.init V C).run ops).frags, f.id ∈ ids) :
    (∃ s', ((State.init V C).run ops).compact ids = some s') ↔
      ∀ d ∈ ds, (∃ f ∈ ((State.init V C).run ops).frags, f.id ∈ ids ∧ f.id ∈ d.bitmap) →
        (∀ f ∈ ((State.init V C).run ops).frags, f.id ∈ ids → f.id ∈ d.bitmap) ∧ d.file.partCol = false ∧
        ∃ e ∈ d.file.entries, (∃ w, lookup ((State.init V C).run ops).frags e.2.1 = some w) ∨
          ¬∃ f ∈ ((State.init V C).run ops).frags, f.id ∈ ids ∧ f.id = e.2.1.1 := by
  have hinv := reach hf
  obtain ⟨hc, hd, hb⟩ := hinv.index c ds hix
  generalize (State.init V C).run ops = s at *
  have hg := grp_ids hinv.ids ids
  have memg : ∀ f, f ∈ grp s.frags ids ↔ f ∈ s.frags ∧ f.id ∈ ids := by
    intro f
    rw [List.mem_filter]
    simp
  have hone : ∀ d ∈ ds, (∃ d', d.compact (grp s.frags ids) s.next = some d') ↔ ((∃ f ∈ s.frags, f.id ∈ ids ∧ f.id ∈ d.bitmap) →
        (∀ f ∈ s.frags, f.id ∈ ids → f.id ∈ d.bitmap) ∧ d.file.partCol = false ∧
        ∃ e ∈ d.file.entries, (∃ w, lookup s.frags e.2.1 = some w) ∨ ¬∃ f ∈ s.frags, f.id ∈ ids ∧ f.id = e.2.1.1) := by
    intro d hdm
    obtain ⟨parts, hok⟩ := hd.1 d hdm
    have hmap : ∀ e ∈ d.file.entries, (compactMap (grp s.frags ids) s.next e.2.1 ≠ some none ↔
        ((∃ w, lookup s.frags e.2.1 = some w) ∨ ¬∃ f ∈ s.frags, f.id ∈ ids ∧ f.id = e.2.1.1)) := by
      intro e he
      obtain ⟨rows, h1, h2⟩ := (mem_entries hok.file).1 he
      by_cases hgm : ∃ f ∈ s.frags, f.id ∈ ids ∧ f.id = e.2.1.1
      · obtain ⟨f, hfm, hfi, hfe⟩ := hgm
        have hfg := (memg f).2 ⟨hfm, hfi⟩
        have hlt := hok.offset _ rows h1 _ h2 f hfm hfe
        rw [compactMap_group hg hfg hfe.symm hlt]
        constructor
        · intro h
          left
          cases hfi : ((grp s.frags ids).flatMap Frag.scan).findIdx? (fun r => r.1 == e.2.1) with
          | none => rw [hfi] at h; exact absurd rfl h
          | some i =>
            obtain ⟨w, hw⟩ := findIdx_some hfi
            obtain ⟨g, hgm, hs⟩ := List.mem_flatMap.1 (List.mem_of_getElem? hw)
            exact ⟨w, (lookup_iff hinv.ids).2 ⟨g, ((memg g).1 hgm).1, hs⟩⟩
        · rintro (⟨w, hw⟩ | h)
          · obtain ⟨g, hgm, hs⟩ := (lookup_iff hinv.ids).1 hw
            have hgf : g.id = f.id := by rw [hfe]; exact (mem_scan.1 hs).1.symm
            have : g ∈ grp s.frags ids := (memg g).2 ⟨hgm, by rw [hgf]; exact hfi⟩
            obtain ⟨i, hi'⟩ := List.mem_iff_getElem?.1 (List.mem_flatMap.2 ⟨g, this, hs⟩)
            rw [findIdx_of (flatScan_nodup hg) hi']
            simp
          · exact absurd ⟨f, hfm, hfi, hfe⟩ h
      · rw [compactMap_other (by
          intro h
          obtain ⟨f, hfm, hfe⟩ := List.mem_map.1 h
          exact hgm ⟨f, ((memg f).1 hfm).1, ((memg f).1 hfm).2, hfe⟩)]
        simp only [ne_eq, reduceCtorEq, not_false_eq_true, true_iff]
        exact Or.inr hgm
    unfold Delta.compact
    by_cases hany : ∃ f ∈ s.frags, f.id ∈ ids ∧ f.id ∈ d.bitmap
    · have h1 : (grp s.frags ids).any (fun f => d.bitmap.contains f.id) = true := by
        obtain ⟨f, hfm, hfi, hfb⟩ := hany
        exact List.any_eq_true.2 ⟨f, (memg f).2 ⟨hfm, hfi⟩, by simpa using hfb⟩
      rw [if_pos h1]
      by_cases hall : ∀ f ∈ s.frags, f.id ∈ ids → f.id ∈ d.bitmap
      · have h2 : (grp s.frags ids).all (fun f => d.bitmap.contains f.id) = true := by
          rw [List.all_eq_true]
          intro f hfm
          simpa using hall f ((memg f).1 hfm).1 ((memg f).1 hfm).2
        rw [if_pos h2]
        have hr := remap_some_iff hok.file (compactMap (grp s.frags ids) s.next)
        have hex : (∃ e ∈ d.file.entries, compactMap (grp s.frags ids) s.next e.2.1 ≠ some none) ↔
            ∃ e ∈ d.file.entries, (∃ w, lookup s.frags e.2.1 = some w) ∨ ¬∃ f ∈ s.frags, f.id ∈ ids ∧ f.id = e.2.1.1 := by
          constructor
          · rintro ⟨e, he, h⟩
            exact ⟨e, he, (hmap e he).1 h⟩
          · rintro ⟨e, he, h⟩
            exact ⟨e, he, (hmap e he).2 h⟩
        rw [hex] at hr
        constructor
        · rintro ⟨d', h⟩ _
          obtain ⟨x, hx, _⟩ := Option.map_eq_some_iff.1 h
          exact ⟨hall, hr.1 ⟨x, hx⟩⟩
        · intro h
          obtain ⟨x, hx⟩ := hr.2 (h hany).2
          rw [hx]
          exact ⟨_, rfl⟩
      · have h2 : ¬(grp s.frags ids).all (fun f => d.bitmap.contains f.id) = true := by
          intro h
          rw [List.all_eq_true] at h
          apply hall
          intro f hfm hfi
          simpa using h f ((memg f).2 ⟨hfm, hfi⟩)
        rw [if_neg h2]
        constructor
        · rintro ⟨d', h⟩
          cases h
        · intro h
          exact absurd (h hany).1 hall
    · have h1 : ¬(grp s.frags ids).any (fun f => d.bitmap.contains f.id) = true := by
        intro h
        obtain ⟨f, hfm, hfb⟩ := List.any_eq_true.1 h
        exact hany ⟨f, ((memg f).1 hfm).1, ((memg f).1 hfm).2, by simpa using hfb⟩
      rw [if_neg h1]
      exact ⟨fun _ h => absurd h hany, fun _ => ⟨d, rfl⟩⟩
  unfold State.compact
  simp only
  have hgne : ¬(s.frags.filter (fun f => ids.contains f.id)).isEmpty = true := by
    rw [List.isEmpty_iff]
    intro e
    obtain ⟨f, hfm, hfi⟩ := hne
    have := (memg f).2 ⟨hfm, hfi⟩
    rw [show grp s.frags ids = [] from e] at this
    cases this
  rw [if_neg hgne, hix]
  simp only
  constructor
  · rintro ⟨s', h⟩ d hdm
    cases hm : ds.mapM (Delta.compact (grp s.frags ids) s.next) with
    | none => rw [hm] at h; cases h
    | some ds' =>
      obtain ⟨d', _, hd'⟩ := mapM_ok hm hdm
      exact (hone d hdm).1 ⟨d', hd'⟩
  · intro h
    obtain ⟨ds', hm⟩ := mapM_exists (f := Delta.compact (grp s.frags ids) s.next) (l := ds) (fun d hdm => (hone d hdm).2 (h d hdm))
    rw [show ds.mapM (Delta.compact (s.frags.filter (fun f => ids.contains f.id)) s.next) = some ds' from hm]
    exact ⟨_, rfl⟩

/-! ### Where it fails -/

/-- `n` partitions by the remainder, the vectors themselves as codes. -/
def modCfg (n : Nat) : Cfg Nat Nat :=
  { nparts := n
    norm := id
    part := fun v => some (v % n)
    resid := fun _ v => v
    quant := id
    bufferSize := 2
    split := fun l => if l.isEmpty then [] else [l] }

theorem modCfg_valid {n : Nat} (h : 0 < n) : (modCfg n).Valid := by
  refine ⟨h, ?_, ?_, ?_⟩
  · intro v p hp
    cases hp
    exact Nat.mod_lt _ h
  · intro l
    cases l <;> simp [modCfg]
  · intro l b hb
    cases l with
    | nil => cases hb
    | cons x xs =>
      cases List.mem_singleton.1 hb
      intro e
      cases e

/-- Two rows, an index with two partitions, `optimize_indices` without new data. -/
def optimizeTwice : List (Op Nat Nat) := [.append [some 5, some 2], .create (modCfg 2), .optimize 1]

/-- The deltas after a history. -/
def deltasOf (ops : List (Op V C)) : List (Delta C) := ((((State.init V C).run ops).index).map Prod.snd).getD []

theorem index_of {ops : List (Op V C)} {c : Cfg V C} (h : (((State.init V C).run ops).index).map Prod.fst = some c) :
    ((State.init V C).run ops).index = some (c, deltasOf ops) := by
  unfold deltasOf
  cases hix : ((State.init V C).run ops).index with
  | none => rw [hix] at h; cases h
  | some cd =>
    rw [hix] at h
    cases h
    rfl

theorem C77_violated : ¬C77_statement := by
  intro h
  have ht : Trained optimizeTwice := by
    intro op hop c hc
    simp only [optimizeTwice, List.mem_cons, List.not_mem_nil, or_false] at hop
    rcases hop with rfl | rfl | rfl
    · cases hc
    · cases hc; exact modCfg_valid (by omega)
    · cases hc
  have := h Nat Nat optimizeTwice ht (modCfg 2) (deltasOf optimizeTwice) (index_of rfl) (0, 0) 5 (by decide +kernel) (by decide +kernel)
  exact absurd this (by decide +kernel)

/-- The row is there twice. -/
example : occurrences (deltasOf optimizeTwice) (0, 0) = 2 := by decide +kernel

/-- An index, a new fragment, and a deleted row. -/
def deletedThenOptimize : List (Op Nat Nat) := [.append [some 5, some 2], .create (modCfg 2), .append [some 7], .delete (fun a => a == (0, 1))]

theorem C77_optimize_violated : ¬C77_optimize_statement := by
  intro h
  have hf : Fresh (State.init Nat Nat) deletedThenOptimize := ⟨trivial, modCfg_valid (by omega), trivial, trivial, trivial⟩
  obtain ⟨s', hs⟩ := h Nat Nat deletedThenOptimize hf (modCfg 2) (deltasOf deletedThenOptimize) (index_of rfl)
    ⟨(1, 0), 7, by decide +kernel, by decide +kernel⟩ 1
  have : (((State.init Nat Nat).run deletedThenOptimize).optimize 1).isNone = true := by decide +kernel
  rw [hs] at this
  cases this

/-- An index with one partition. -/
def single : List (Op Nat Nat) := [.append [some 5, some 2], .append [some 7], .create (modCfg 1)]

theorem C77_compact_violated : ¬C77_compact_statement := by
  intro h
  have hf : Fresh (State.init Nat Nat) single := ⟨trivial, trivial, modCfg_valid (by omega), trivial⟩
  obtain ⟨s', hs⟩ := h Nat Nat single hf (modCfg 1) (deltasOf single) (index_of rfl) [0, 1]
    (by decide +kernel) ⟨(1, 0), 7, by decide +kernel, by decide +kernel⟩
  have : (((State.init Nat Nat).run single).compact [0, 1]).isNone = true := by decide +kernel
  rw [hs] at this
  cases this

/-! ### Examples -/

/-- A history with everything: two partitions, null vectors, a delta, deletions, compaction, a merge. -/
def busy : List (Op Nat Nat) :=
  [.append [some 5, none, some 2], .append [some 7], .create (modCfg 2), .delete (fun a => a == (0, 0)), .append [some 8, none], .optimize 0,
    .compact [0, 1], .append [some 4], .optimize 1, .append [some 9]]

theorem busy_fresh : Fresh (State.init Nat Nat) busy := by
  refine ⟨trivial, trivial, modCfg_valid (by omega), trivial, trivial, ?_, trivial, trivial, ?_, trivial, trivial⟩
  · intro c ds hix
    have hz : ∀ ix : Option (Cfg Nat Nat × List (Delta Nat)), ix = some (c, ds) → (ix.map Prod.snd).getD [] = ds := by
      intro ix h; rw [h]; rfl
    rw [← hz _ hix]
    have : (unindexed (((State.init Nat Nat).run (busy.take 5)).frags) (deltasOf (busy.take 5))).map Frag.id = [2] := by decide +kernel
    intro e
    have e' : unindexed (((State.init Nat Nat).run (busy.take 5)).frags) (deltasOf (busy.take 5)) = [] := e
    rw [e'] at this
    cases this
  · intro c ds hix
    have hz : ∀ ix : Option (Cfg Nat Nat × List (Delta Nat)), ix = some (c, ds) → (ix.map Prod.snd).getD [] = ds := by
      intro ix h; rw [h]; rfl
    rw [← hz _ hix]
    have : (unindexed (((State.init Nat Nat).run (busy.take 8)).frags) (deltasOf (busy.take 8))).map Frag.id = [4] := by decide +kernel
    intro e
    have e' : unindexed (((State.init Nat Nat).run (busy.take 8)).frags) (deltasOf (busy.take 8)) = [] := e
    rw [e'] at this
    cases this

theorem C77_nonvacuous : (deltasOf busy).map (fun d => (d.file.entries, d.bitmap)) =
      [([(0, (3, 1), 2), (1, (3, 2), 7)], [3]), ([(0, (2, 0), 8), (0, (4, 0), 4)], [4, 2])] ∧
    lookup ((State.init Nat Nat).run busy).frags (3, 1) = some (some 2) ∧ lookup ((State.init Nat Nat).run busy).frags (3, 0) = some none ∧
    occurrences (deltasOf busy) (3, 1) = 1 ∧ occurrences (deltasOf busy) (3, 0) = 0 ∧ covered (deltasOf busy) 5 = false := by decide +kernel

end Verif.Vec
