import Verif.Vec.LemmasKnn
import Verif.Vec.PropsIndex
/-!
# C78 and C79: what a nearest neighbour search returns
-/
namespace Verif.Vec
variable {V C : Type}

/-! ### C78 -/

/-- C78: a search that probes all partitions of an index that stores the vectors returns the nearest rows, whatever happened before. -/
def C78_statement : Prop :=
  ∀ (V C : Type) (srt : Srt) (ops : List (Op V C)), Trained ops → ∀ (q : Query) (m : Dist V C),
    (∀ c ds, ((State.init V C).run ops).index = some (c, ds) → Flat c m ∧ c.nparts ≤ q.nprobes) →
    q.refine ≠ some 0 → q.fast = false → q.fragments = none →
    ∃ r, knn srt q m ((State.init V C).run ops) = some r ∧ Nearest q.k (q.candidates m ((State.init V C).run ops)) r

/-- Without an index (or if it is not to be used) the search is exact, in any state and also in chosen fragments. -/
theorem C78_flat_exact (srt : Srt) (q : Query) (m : Dist V C) (s : State V C) (h : q.useIndex = false ∨ s.index = none) :
    ∃ r, knn srt q m s = some r ∧ Nearest q.k (q.candidates m s) r := by
  have hn : (if q.useIndex then s.index else none) = none := by
    rcases h with e | e
    · rw [e]; rfl
    · rw [e]; cases q.useIndex <;> rfl
  unfold knn
  rw [hn]
  refine ⟨_, rfl, ?_⟩
  apply flatKnn_nearest
  rw [candidates_eq, filterScan_eq]
  exact Suff.refl _ _

/-- All covered candidates are in the index. -/
theorem index_perm {srt : Srt} {q : Query} {m : Dist V C} {s : State V C} (h : Inv true s) {c : Cfg V C} {ds : List (Delta C)} (hix : s.index = some (c, ds))
    (hflat : Flat c m) (hn : c.nparts ≤ q.nprobes) (hfr : q.fragments = none ∨ q.filter.isSome = true) :
    (indexCands q m s.frags (findPartitions srt q m c.nparts) ds).Perm ((q.candidates m s).filter (fun x => covered ds x.1.1)) := by
  obtain ⟨hc, hd, _⟩ := h.index c ds hix
  refine (List.perm_ext_iff_of_nodup (nodup_of_fst (indexCands_nodup h.ids hd (probes_nodup srt q m c.nparts)))
    (List.filter_sublist.nodup (nodup_of_fst (candidates_nodup h.ids)))).2 ?_
  intro x
  rw [List.mem_filter, mem_candidates h.ids]
  constructor
  · intro hx
    obtain ⟨d, hdm, hb, v, e1, _, e2, e3, e4⟩ := mem_indexCands h.ids hd hx
    refine ⟨⟨v, e1, ?_, e2.1, ?_, e3⟩, ?_⟩
    · rcases hfr with e | e
      · rw [e]; rfl
      · exact e2.2 e
    · rcases e4 with e | ⟨_, e⟩
      · rw [e, hflat.fresh]
      · rw [e, hflat.raw]
    · unfold covered
      simp only [List.contains_eq_mem, decide_eq_true_eq]
      exact List.mem_flatMap.2 ⟨d, hdm, hb⟩
  · rintro ⟨⟨v, e1, e2, e3, e4, e5⟩, hcov⟩
    obtain ⟨a, dst⟩ := x
    simp only at e1 e2 e3 e4 e5 hcov
    subst e4
    exact indexCands_has h.ids hd e1 hcov (probes_all hn (pid_lt hc v)) ⟨e3, fun _ => e2⟩ (fun v => ⟨hflat.fresh v, fun _ => hflat.raw v⟩) e5

theorem filter_split {α : Type} (p : α → Bool) (l : List α) : (l.filter (fun x => !p x) ++ l.filter p).Perm l :=
  List.perm_append_comm.trans (List.filter_append_perm p l)

/-- C78, for histories where `optimize_indices` is only called when a fragment is not covered yet. -/
theorem C78_index_exact_partial (srt : Srt) (ops : List (Op V C)) (hf : Fresh (State.init V C) ops) (q : Query) (m : Dist V C)
    (hix : ∀ c ds, ((State.init V C).run ops).index = some (c, ds) → Flat c m ∧ c.nparts ≤ q.nprobes)
    (hr : q.refine ≠ some 0) (hfast : q.fast = false) (hfr : q.fragments = none) :
    ∃ r, knn srt q m ((State.init V C).run ops) = some r ∧ Nearest q.k (q.candidates m ((State.init V C).run ops)) r := by
  have hinv := reach hf
  generalize (State.init V C).run ops = s at *
  cases hu : q.useIndex with
  | false => exact C78_flat_exact srt q m s (Or.inl hu)
  | true =>
    cases hs : s.index with
    | none => exact C78_flat_exact srt q m s (Or.inr hs)
    | some cd =>
      obtain ⟨c, ds⟩ := cd
      obtain ⟨hflat, hn⟩ := hix c ds hs
      obtain ⟨r, h1, h2⟩ := knn_flat srt q m hinv hs hu hr hflat
      refine ⟨r, h1, h2.perm ?_⟩
      rw [hfast]
      simp only [Bool.false_eq_true, if_false]
      refine List.Perm.trans ?_ (filter_split (fun x => covered ds x.1.1) (q.candidates m s))
      refine List.Perm.append ?_ (index_perm hinv hs hflat hn (Or.inl hfr))
      refine (List.perm_ext_iff_of_nodup (nodup_of_fst (newCands_nodup hinv.ids)) (List.filter_sublist.nodup (nodup_of_fst (candidates_nodup hinv.ids)))).2 ?_
      intro x
      rw [List.mem_filter, mem_candidates hinv.ids, mem_newCands hinv.ids]
      constructor
      · rintro ⟨v, e1, e2, e3, e4, e5⟩
        exact ⟨⟨v, e1, by rw [hfr]; rfl, e3, e4, e5⟩, by rw [e2]; rfl⟩
      · rintro ⟨⟨v, e1, _, e3, e4, e5⟩, e6⟩
        exact ⟨v, e1, by simpa using e6, e3, e4, e5⟩

/-- With `fast_search` the nearest of the covered rows are returned. -/
theorem C78_fast_exact_partial (srt : Srt) (ops : List (Op V C)) (hf : Fresh (State.init V C) ops) (q : Query) (m : Dist V C) (c : Cfg V C) (ds : List (Delta C))
    (hix : ((State.init V C).run ops).index = some (c, ds)) (hflat : Flat c m) (hn : c.nparts ≤ q.nprobes) (hu : q.useIndex = true)
    (hr : q.refine ≠ some 0) (hfast : q.fast = true) (hfr : q.fragments = none) :
    ∃ r, knn srt q m ((State.init V C).run ops) = some r ∧ Nearest q.k ((q.candidates m ((State.init V C).run ops)).filter (fun x => covered ds x.1.1)) r := by
  have hinv := reach hf
  obtain ⟨r, h1, h2⟩ := knn_flat srt q m hinv hix hu hr hflat
  refine ⟨r, h1, h2.perm ?_⟩
  rw [hfast]
  exact index_perm hinv hix hflat hn (Or.inl hfr)

/-- With any codes and any number of probes: no row twice, in increasing order, not more than asked for, all of them live rows with a vector that pass the filter
and whose distances are in the range; with a refine factor the distances are those of the vectors. -/
theorem C78_approximate_sound_partial (srt : Srt) (ops : List (Op V C)) (hf : Fresh (State.init V C) ops) (q : Query) (m : Dist V C) (hr : q.refine ≠ some 0) :
    ∃ r, knn srt q m ((State.init V C).run ops) = some r ∧ (r.map Prod.fst).Nodup ∧ (r.map Prod.snd).Pairwise (· ≤ ·) ∧ r.length ≤ q.k ∧
      ∀ x ∈ r, ∃ v, lookup ((State.init V C).run ops).frags x.1 = some (some v) ∧ q.filter.all (fun p => p x.1) = true ∧ Between q.lower q.upper x.2 ∧
        (q.refine.isSome = true → x.2 = m.dist v) := by
  have h := knn_sound srt q m (reach hf) hr
  simp only [inRange_between, decide_eq_true_eq] at h
  exact h

/-- With fewer probes, an index that stores the vectors: the nearest of the rows in the probed partitions and of the new rows. -/
theorem C78_probed_exact_partial (srt : Srt) (ops : List (Op V C)) (hf : Fresh (State.init V C) ops) (q : Query) (m : Dist V C) (c : Cfg V C) (ds : List (Delta C))
    (hix : ((State.init V C).run ops).index = some (c, ds)) (hflat : Flat c m) (hu : q.useIndex = true)
    (hr : q.refine ≠ some 0) (hfast : q.fast = false) (hfr : q.fragments = none) :
    ∃ r cands, knn srt q m ((State.init V C).run ops) = some r ∧ Nearest q.k cands r ∧ cands.Nodup ∧
      ∀ x, x ∈ cands ↔ x ∈ q.candidates m ((State.init V C).run ops) ∧
        (covered ds x.1.1 = false ∨ ∃ v, lookup ((State.init V C).run ops).frags x.1 = some (some v) ∧ c.pid v ∈ (srt.sort m.centroid (List.range c.nparts)).take q.nprobes) := by
  have hinv := reach hf
  generalize (State.init V C).run ops = s at *
  obtain ⟨hc, hd, _⟩ := hinv.index c ds hix
  obtain ⟨r, h1, h2⟩ := knn_flat srt q m hinv hix hu hr hflat
  rw [hfast] at h2
  simp only [Bool.false_eq_true, if_false] at h2
  refine ⟨r, _, h1, h2, ?_, ?_⟩
  · rw [List.nodup_append]
    refine ⟨nodup_of_fst (newCands_nodup hinv.ids), nodup_of_fst (indexCands_nodup hinv.ids hd (probes_nodup srt q m c.nparts)), ?_⟩
    intro a ha b hb e
    subst e
    obtain ⟨_, _, e2, _⟩ := (mem_newCands hinv.ids).1 ha
    obtain ⟨d, hdm, hbm, _⟩ := mem_indexCands hinv.ids hd hb
    exact covered_false.1 e2 d hdm hbm
  · intro x
    rw [List.mem_append, mem_candidates hinv.ids, mem_newCands hinv.ids]
    constructor
    · rintro (⟨v, e1, e2, e3, e4, e5⟩ | hx)
      · exact ⟨⟨v, e1, by rw [hfr]; rfl, e3, e4, e5⟩, Or.inl e2⟩
      · obtain ⟨d, hdm, hb, v, e1, e0, e2, e3, e4⟩ := mem_indexCands hinv.ids hd hx
        refine ⟨⟨v, e1, by rw [hfr]; rfl, e2.1, ?_, e3⟩, Or.inr ⟨v, e1, e0⟩⟩
        rcases e4 with e | ⟨_, e⟩
        · rw [e, hflat.fresh]
        · rw [e, hflat.raw]
    · rintro ⟨⟨v, e1, _, e3, e4, e5⟩, h⟩
      cases hcov : covered ds x.1.1 with
      | false => exact Or.inl ⟨v, e1, rfl, e3, e4, e5⟩
      | true =>
        right
        rcases h with h | ⟨v', e1', e6⟩
        · rw [hcov] at h; cases h
        · rw [e1] at e1'
          cases e1'
          obtain ⟨a, dst⟩ := x
          simp only at e1 e3 e4 e5 hcov
          subst e4
          exact indexCands_has hinv.ids hd e1 hcov e6 ⟨e3, fun _ => by rw [hfr]; rfl⟩ (fun v => ⟨hflat.fresh v, fun _ => hflat.raw v⟩) e5

/-! ### Where it fails -/

def stdSrt : Srt where
  sort key l := sortBy key l
  perm key l := sortBy_perm key l
  sorted key l := sortBy_sorted key l

/-- How far from `t`. -/
def distTo (t : Nat) : Dist Nat Nat :=
  { dist := fun v => (v - t) + (t - v)
    code := fun _ v => (v - t) + (t - v)
    centroid := fun p => p }

theorem modCfg_flat (n t : Nat) : Flat (modCfg n) (distTo t) := ⟨fun _ => rfl, fun _ => rfl⟩

/-- All partitions, the two nearest. -/
def query2 : Query :=
  { k := 2, refine := none, lower := none, upper := none, nprobes := 4, useIndex := true, fast := false, fragments := none, filter := none }

theorem C78_violated : ¬C78_statement := by
  intro h
  have ht : Trained optimizeTwice := by
    intro op hop c hc
    simp only [optimizeTwice, List.mem_cons, List.not_mem_nil, or_false] at hop
    rcases hop with rfl | rfl | rfl
    · cases hc
    · cases hc; exact modCfg_valid (by omega)
    · cases hc
  obtain ⟨r, h1, _, _, rest, h2, _⟩ := h Nat Nat stdSrt optimizeTwice ht query2 (distTo 5) (by
    intro c ds hix
    have h0 : (((State.init Nat Nat).run optimizeTwice).index).map Prod.fst = some c := by rw [hix]; rfl
    cases h0
    exact ⟨modCfg_flat 2 5, by decide⟩) (by decide) rfl rfl
  have h3 : knn stdSrt query2 (distTo 5) ((State.init Nat Nat).run optimizeTwice) = some [((0, 0), 0), ((0, 0), 0)] := by decide +kernel
  rw [h3] at h1
  cases h1
  have hn := ((h2.map Prod.fst).nodup_iff).2 (candidates_nodup (init_ids optimizeTwice))
  simp at hn

/-- The hypotheses of the theorems hold for a history with everything. -/
theorem C78_nonvacuous : Fresh (State.init Nat Nat) busy ∧ ((State.init Nat Nat).run busy).index = some (modCfg 2, deltasOf busy) ∧
    Flat (modCfg 2) (distTo 6) ∧ (modCfg 2).nparts ≤ query2.nprobes ∧
    knn stdSrt query2 (distTo 6) ((State.init Nat Nat).run busy) = some [((3, 2), 1), ((2, 0), 2)] ∧
    query2.candidates (distTo 6) ((State.init Nat Nat).run busy) = [((2, 0), 2), ((3, 1), 4), ((3, 2), 1), ((4, 0), 2), ((5, 0), 3)] :=
  ⟨busy_fresh, index_of rfl, modCfg_flat 2 6, by decide, by decide +kernel, by decide +kernel⟩

/-- With a filter, a range and a refine factor. -/
example : knn stdSrt { query2 with refine := some 3, lower := some 2, upper := some 4, filter := some (fun a => a != (2, 0)) } (distTo 6)
    ((State.init Nat Nat).run busy) = some [((4, 0), 2), ((5, 0), 3)] := by decide +kernel

/-- `fast_search` leaves out the last fragment. -/
example : knn stdSrt { query2 with k := 9, fast := true } (distTo 6) ((State.init Nat Nat).run busy) =
    some [((3, 2), 1), ((2, 0), 2), ((4, 0), 2), ((3, 1), 4)] := by decide +kernel

/-! ### C79 -/

/-- C79: a search in chosen fragments returns only rows of these fragments. -/
def C79_statement : Prop :=
  ∀ (V C : Type) (srt : Srt) (ops : List (Op V C)), Fresh (State.init V C) ops → ∀ (q : Query) (m : Dist V C) (ids : List Nat), q.fragments = some ids →
    ∀ r, knn srt q m ((State.init V C).run ops) = some r → ∀ x ∈ r, x.1.1 ∈ ids

theorem nearest_mem {k : Nat} {cands r : List (Addr × Nat)} (h : Nearest k cands r) {x : Addr × Nat} (hx : x ∈ r) : x ∈ cands := by
  obtain ⟨_, _, rest, h1, _⟩ := h
  exact h1.mem_iff.1 (List.mem_append_left _ hx)

/-- C79 without an index: the nearest rows of these fragments. -/
theorem C79_flat_partial (srt : Srt) (ops : List (Op V C)) (q : Query) (m : Dist V C) (ids : List Nat) (hfr : q.fragments = some ids)
    (h : q.useIndex = false ∨ ((State.init V C).run ops).index = none) :
    ∃ r, knn srt q m ((State.init V C).run ops) = some r ∧ Nearest q.k (q.candidates m ((State.init V C).run ops)) r ∧ ∀ x ∈ r, x.1.1 ∈ ids := by
  obtain ⟨r, h1, h2⟩ := C78_flat_exact srt q m _ h
  refine ⟨r, h1, h2, ?_⟩
  intro x hx
  obtain ⟨_, _, e, _⟩ := (mem_candidates (init_ids ops)).1 (nearest_mem h2 hx)
  rw [hfr] at e
  simpa using e

/-- C79 with an index that stores the vectors, if there is a filter and all fragments are covered. -/
theorem C79_filtered_partial (srt : Srt) (ops : List (Op V C)) (hf : Fresh (State.init V C) ops) (q : Query) (m : Dist V C) (ids : List Nat) (hfr : q.fragments = some ids)
    (c : Cfg V C) (ds : List (Delta C)) (hix : ((State.init V C).run ops).index = some (c, ds)) (hflat : Flat c m) (hn : c.nparts ≤ q.nprobes) (hu : q.useIndex = true)
    (hr : q.refine ≠ some 0) (hfil : q.filter.isSome = true) (hcov : ∀ f ∈ ((State.init V C).run ops).frags, covered ds f.id = true) :
    ∃ r, knn srt q m ((State.init V C).run ops) = some r ∧ Nearest q.k (q.candidates m ((State.init V C).run ops)) r ∧ ∀ x ∈ r, x.1.1 ∈ ids := by
  have hinv := reach hf
  obtain ⟨r, h1, h2⟩ := knn_flat srt q m hinv hix hu hr hflat
  have hno : (if q.fast then [] else newCands q m ((State.init V C).run ops) ds) = [] := by
    cases q.fast with
    | true => rfl
    | false =>
      rw [if_neg (by decide), List.eq_nil_iff_forall_not_mem]
      intro x hx
      obtain ⟨v, e1, e2, _⟩ := (mem_newCands hinv.ids).1 hx
      obtain ⟨f, hfm, hs⟩ := (lookup_iff hinv.ids).1 e1
      rw [(mem_scan.1 hs).1, hcov f hfm] at e2
      cases e2
  rw [hno, List.nil_append] at h2
  have h3 : Nearest q.k (q.candidates m ((State.init V C).run ops)) r := by
    refine h2.perm ((index_perm hinv hix hflat hn (Or.inr hfil)).trans (List.Perm.of_eq ?_))
    rw [List.filter_eq_self]
    intro x hx
    obtain ⟨v, e1, _⟩ := (mem_candidates hinv.ids).1 hx
    obtain ⟨f, hfm, hs⟩ := (lookup_iff hinv.ids).1 e1
    rw [(mem_scan.1 hs).1]
    exact hcov f hfm
  refine ⟨r, h1, h3, ?_⟩
  intro x hx
  obtain ⟨_, _, e, _⟩ := (mem_candidates hinv.ids).1 (nearest_mem h3 hx)
  rw [hfr] at e
  simpa using e

/-- Two fragments in an index. -/
def twoFrags : List (Op Nat Nat) := [.append [some 5, some 2], .append [some 7, some 8], .create (modCfg 2)]

theorem twoFrags_fresh : Fresh (State.init Nat Nat) twoFrags := ⟨trivial, trivial, modCfg_valid (by omega), trivial⟩

theorem C79_violated : ¬C79_statement := by
  intro h
  have h1 : knn stdSrt { query2 with fragments := some [0] } (distTo 7) ((State.init Nat Nat).run twoFrags) = some [((1, 0), 0), ((1, 1), 1)] := by decide +kernel
  have := h Nat Nat stdSrt twoFrags twoFrags_fresh { query2 with fragments := some [0] } (distTo 7) [0] rfl _ h1 ((1, 0), 0) List.mem_cons_self
  exact absurd this (by decide)

/-- Also with a filter, if a fragment is not covered. -/
theorem C79_unindexed_violated : ∃ (ops : List (Op Nat Nat)) (q : Query), Fresh (State.init Nat Nat) ops ∧ q.filter.isSome = true ∧ q.fragments = some [0] ∧
    ∃ r, knn stdSrt q (distTo 7) ((State.init Nat Nat).run ops) = some r ∧ ∃ x ∈ r, x.1.1 ∉ [0] := by
  refine ⟨[.append [some 5, some 2], .create (modCfg 2), .append [some 7, some 8]], { query2 with fragments := some [0], filter := some (fun _ => true) },
    ⟨trivial, modCfg_valid (by omega), trivial, trivial⟩, rfl, rfl, [((1, 0), 0), ((1, 1), 1)], by decide +kernel, ((1, 0), 0), List.mem_cons_self, by decide⟩

theorem C79_nonvacuous : Fresh (State.init Nat Nat) twoFrags ∧ ((State.init Nat Nat).run twoFrags).index = some (modCfg 2, deltasOf twoFrags) ∧
    (((State.init Nat Nat).run twoFrags).frags.map Frag.id).all (fun i => covered (deltasOf twoFrags) i) = true ∧
    knn stdSrt { query2 with fragments := some [0], filter := some (fun a => a != (0, 0)) } (distTo 7) ((State.init Nat Nat).run twoFrags) = some [((0, 1), 5)] ∧
    knn stdSrt { query2 with fragments := some [0], useIndex := false } (distTo 7) ((State.init Nat Nat).run twoFrags) = some [((0, 0), 2), ((0, 1), 5)] :=
  ⟨twoFrags_fresh, index_of rfl, by decide +kernel, by decide +kernel, by decide +kernel⟩

end Verif.Vec
