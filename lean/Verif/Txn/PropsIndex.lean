import Verif.Txn.RowIdsInv
import Verif.Txn.Play
/-!
# C27 (index coverage after rewrite), C49 (schema changes), C50 (indexed fields exist)
-/
namespace Verif.Txn

/-! ## C27 -/

/-- All source fragments of the group are covered (and there is one). -/
def Covered (b : Bm) (g : Group) : Prop := g.old ≠ [] ∧ ∀ f ∈ g.old, f.id ∈ b

/-- The coverage after a rewrite: new fragments of covered groups, and what was covered before and has
not been rewritten. -/
def CoverAfter (b b' : Bm) (gs : List Group) : Prop :=
  ∀ i, i ∈ b' ↔ (∃ g ∈ gs, Covered b g ∧ ∃ f ∈ g.new, f.id = i) ∨
    (i ∈ b ∧ ¬ ∃ g ∈ gs, Covered b g ∧ ∃ f ∈ g.old, f.id = i)

theorem mem_foldl_insert (l : List Nat) (b : Bm) (i : Nat) :
    i ∈ l.foldl (fun b i => Bm.insert i b) b ↔ i ∈ b ∨ i ∈ l := by
  induction l generalizing b with
  | nil => simp
  | cons a l ih => rw [List.foldl_cons, ih, Bm.mem_insert, List.mem_cons]; grind

theorem mem_foldl_remove (l : List Nat) (b : Bm) (i : Nat) :
    i ∈ l.foldl (fun b i => Bm.remove i b) b ↔ i ∈ b ∧ i ∉ l := by
  induction l generalizing b with
  | nil => simp
  | cons a l ih => rw [List.foldl_cons, ih, Bm.mem_remove, List.mem_cons]; grind

theorem recalcStep_ok {old acc acc' : Bm} {g : Group} (ho : ∀ f ∈ g.old, f.id < U32) (hn : ∀ f ∈ g.new, f.id < U32)
    (h : recalcStep old acc g = .ok acc') :
    (Covered old g ∧ ∀ i, i ∈ acc' ↔ (∃ f ∈ g.new, f.id = i) ∨ (i ∈ acc ∧ ¬ ∃ f ∈ g.old, f.id = i)) ∨
    ((∀ f ∈ g.old, f.id ∉ old) ∧ acc' = acc) := by
  have e1 : g.old.map (fun f => f.id % U32) = g.old.map (·.id) :=
    List.map_congr_left (fun f hf => Nat.mod_eq_of_lt (ho f hf))
  have e2 : g.new.map (fun f => f.id % U32) = g.new.map (·.id) :=
    List.map_congr_left (fun f hf => Nat.mod_eq_of_lt (hn f hf))
  unfold recalcStep at h
  split at h
  · rename_i hany
    split at h
    · rename_i hall
      simp only [Except.ok.injEq] at h
      left
      refine ⟨⟨?_, ?_⟩, ?_⟩
      · intro hnil; rw [hnil] at hany; cases hany
      · intro f hf
        have := List.all_eq_true.1 hall f hf
        rw [Nat.mod_eq_of_lt (ho f hf), Bm.has_iff] at this
        exact this
      · intro i
        rw [← h, mem_foldl_insert, mem_foldl_remove, e1, e2]
        simp only [List.mem_map]
        exact Or.comm
    · cases h
  · rename_i hany
    simp only [Except.ok.injEq] at h
    right
    refine ⟨fun f hf hm => hany (List.any_eq_true.2 ⟨f, hf, ?_⟩), h.symm⟩
    rw [Nat.mod_eq_of_lt (ho f hf), Bm.has_iff]; exact hm

theorem recalcFrom_ok {old : Bm} {gs : List Group} (ho : ∀ g ∈ gs, ∀ f ∈ g.old, f.id < U32)
    (hn : ∀ g ∈ gs, ∀ f ∈ g.new, f.id < U32)
    (hfresh : ∀ g ∈ gs, ∀ f ∈ g.new, ∀ g' ∈ gs, ∀ f' ∈ g'.old, f.id ≠ f'.id)
    {acc acc' : Bm} (h : recalcFrom old acc gs = .ok acc') :
    (∀ i, i ∈ acc' ↔ (∃ g ∈ gs, Covered old g ∧ ∃ f ∈ g.new, f.id = i) ∨
      (i ∈ acc ∧ ¬ ∃ g ∈ gs, Covered old g ∧ ∃ f ∈ g.old, f.id = i)) ∧
    ∀ g ∈ gs, Covered old g ∨ ∀ f ∈ g.old, f.id ∉ old := by
  induction gs generalizing acc with
  | nil =>
    simp only [recalcFrom, Except.ok.injEq] at h
    subst h
    exact ⟨fun i => by simp, fun g hg => by cases hg⟩
  | cons g gs ih =>
    unfold recalcFrom at h
    split at h
    · cases h
    · rename_i a1 hs
      have hrest := ih (fun g hg => ho g (List.mem_cons_of_mem _ hg)) (fun g hg => hn g (List.mem_cons_of_mem _ hg))
        (fun g hg f hf g' hg' => hfresh g (List.mem_cons_of_mem _ hg) f hf g' (List.mem_cons_of_mem _ hg')) h
      obtain ⟨hr, hr2⟩ := hrest
      rcases recalcStep_ok (ho g List.mem_cons_self) (hn g List.mem_cons_self) hs with ⟨hc, hi⟩ | ⟨hno, hi⟩
      · refine ⟨fun i => ?_, fun g' hg' => ?_⟩
        · rw [hr i, hi i]
          constructor
          · rintro (⟨g', hg', h1, h2⟩ | ⟨h1 | h1, h2⟩)
            · exact Or.inl ⟨g', List.mem_cons_of_mem _ hg', h1, h2⟩
            · exact Or.inl ⟨g, List.mem_cons_self, hc, h1⟩
            · refine Or.inr ⟨h1.1, ?_⟩
              rintro ⟨g', hg', h3, h4⟩
              rcases List.mem_cons.1 hg' with e | hg'
              · subst e; exact h1.2 h4
              · exact h2 ⟨g', hg', h3, h4⟩
          · rintro (⟨g', hg', h1, h2⟩ | ⟨h1, h2⟩)
            · rcases List.mem_cons.1 hg' with e | hg'
              · subst e
                by_cases hx : ∃ g ∈ gs, Covered old g ∧ ∃ f ∈ g.new, f.id = i
                · exact Or.inl hx
                · refine Or.inr ⟨Or.inl h2, ?_⟩
                  rintro ⟨g'', hg'', _, f'', hf'', hid''⟩
                  obtain ⟨f, hf, hfi⟩ := h2
                  exact hfresh g' List.mem_cons_self f hf g'' (List.mem_cons_of_mem _ hg'') f'' hf'' (hfi.trans hid''.symm)
              · exact Or.inl ⟨g', hg', h1, h2⟩
            · refine Or.inr ⟨Or.inr ⟨h1, fun hx => h2 ⟨g, List.mem_cons_self, hc, hx⟩⟩, ?_⟩
              rintro ⟨g', hg', h3⟩
              exact h2 ⟨g', List.mem_cons_of_mem _ hg', h3⟩
        · rcases List.mem_cons.1 hg' with e | hg'
          · subst e; exact Or.inl hc
          · exact hr2 g' hg'
      · subst hi
        have hnc : ¬ Covered old g := by
          rintro ⟨h1, h2⟩
          obtain ⟨f, hf⟩ := List.exists_mem_of_ne_nil _ h1
          exact hno f hf (h2 f hf)
        refine ⟨fun i => ?_, fun g' hg' => ?_⟩
        · rw [hr i]
          constructor
          · rintro (⟨g', hg', h1, h2⟩ | ⟨h1, h2⟩)
            · exact Or.inl ⟨g', List.mem_cons_of_mem _ hg', h1, h2⟩
            · refine Or.inr ⟨h1, ?_⟩
              rintro ⟨g', hg', h3, h4⟩
              rcases List.mem_cons.1 hg' with e | hg'
              · subst e; exact hnc h3
              · exact h2 ⟨g', hg', h3, h4⟩
          · rintro (⟨g', hg', h1, h2⟩ | ⟨h1, h2⟩)
            · rcases List.mem_cons.1 hg' with e | hg'
              · subst e; exact absurd h1 hnc
              · exact Or.inl ⟨g', hg', h1, h2⟩
            · refine Or.inr ⟨h1, ?_⟩
              rintro ⟨g', hg', h3⟩
              exact h2 ⟨g', List.mem_cons_of_mem _ hg', h3⟩
        · rcases List.mem_cons.1 hg' with e | hg'
          · subst e; exact Or.inr hno
          · exact hr2 g' hg'

/-- `recalculate_fragment_bitmap`: if it succeeds, every group was covered completely or not at all, and
the result is the coverage the rewrite leaves.  The new fragments must not be among the old ones. -/
theorem C27_recalculate {old b' : Bm} {gs : List Group} (ho : ∀ g ∈ gs, ∀ f ∈ g.old, f.id < U32)
    (hn : ∀ g ∈ gs, ∀ f ∈ g.new, f.id < U32)
    (hfresh : ∀ g ∈ gs, ∀ f ∈ g.new, ∀ g' ∈ gs, ∀ f' ∈ g'.old, f.id ≠ f'.id)
    (h : recalc old gs = .ok b') :
    CoverAfter old b' gs ∧ ∀ g ∈ gs, Covered old g ∨ ∀ f ∈ g.old, f.id ∉ old :=
  recalcFrom_ok ho hn hfresh h

example : ∃ b, recalc [1, 2, 5] [⟨[⟨1, [], none, none, none⟩, ⟨2, [], none, none, none⟩], [⟨9, [], none, none, none⟩]⟩,
    ⟨[⟨3, [], none, none, none⟩], [⟨10, [], none, none, none⟩]⟩] = .ok b ∧ b = [5, 9] := ⟨_, rfl, by decide⟩

/-- An index that covers only part of a group makes the commit fail. -/
example : recalc [1] [⟨[⟨1, [], none, none, none⟩, ⟨2, [], none, none, none⟩], [⟨9, [], none, none, none⟩]⟩] =
    .error .invalid := rfl

theorem recalcAll_ok {gs : List Group} {ix ix' : List Idx} (h : recalcAll gs ix = .ok ix') :
    ∀ i ∈ ix', ∃ i0 ∈ ix, i.fields = i0.fields ∧ i.name = i0.name ∧
      ((i = i0 ∧ i0.bitmap = none) ∨ ∃ b b', i0.bitmap = some b ∧ i.bitmap = some b' ∧ recalc b gs = .ok b') := by
  induction ix generalizing ix' with
  | nil => cases h; intro i hi; cases hi
  | cons x ix ih =>
    unfold recalcAll at h
    split at h
    · rename_i hb
      split at h
      · cases h
      · rename_i r hr
        cases h
        intro i hi
        rcases List.mem_cons.1 hi with e | hi
        · subst e; exact ⟨i, List.mem_cons_self, rfl, rfl, Or.inl ⟨rfl, hb⟩⟩
        · obtain ⟨i0, h1, h2⟩ := ih hr i hi
          exact ⟨i0, List.mem_cons_of_mem _ h1, h2⟩
    · rename_i b hb
      split at h
      · cases h
      · rename_i b' hb'
        split at h
        · cases h
        · rename_i r hr
          cases h
          intro i hi
          rcases List.mem_cons.1 hi with e | hi
          · subst e; exact ⟨x, List.mem_cons_self, rfl, rfl, Or.inr ⟨b, b', hb, rfl, hb'⟩⟩
          · obtain ⟨i0, h1, h2⟩ := ih hr i hi
            exact ⟨i0, List.mem_cons_of_mem _ h1, h2⟩

theorem rewriteIndex_ok {gs : List Group} {o n : Nat} {ix ix' : List Idx} (h : rewriteIndex gs o n ix = .ok ix') :
    ∀ i ∈ ix', i ∈ ix ∨ ∃ i0 ∈ ix, i0.uuid = o ∧ i.uuid = n ∧ i.fields = i0.fields ∧ i.name = i0.name ∧
      ∃ b b', i0.bitmap = some b ∧ i.bitmap = some b' ∧ recalc b gs = .ok b' := by
  induction ix generalizing ix' with
  | nil => cases h
  | cons x ix ih =>
    unfold rewriteIndex at h
    split at h
    · rename_i hu
      split at h
      · cases h
      · rename_i b hb
        split at h
        · cases h
        · rename_i b' hb'
          cases h
          intro i hi
          rcases List.mem_cons.1 hi with e | hi
          · subst e; exact Or.inr ⟨x, List.mem_cons_self, hu, rfl, rfl, rfl, b, b', hb, rfl, hb'⟩
          · exact Or.inl (List.mem_cons_of_mem _ hi)
    · split at h
      · cases h
      · rename_i r hr
        cases h
        intro i hi
        rcases List.mem_cons.1 hi with e | hi
        · subst e; exact Or.inl List.mem_cons_self
        · rcases ih hr i hi with h1 | ⟨i0, h1, h2⟩
          · exact Or.inl (List.mem_cons_of_mem _ h1)
          · exact Or.inr ⟨i0, List.mem_cons_of_mem _ h1, h2⟩

theorem rewriteIndices_fields {gs : List Group} {rs : List (Nat × Nat)} {seen : List Nat} {ix ix' : List Idx}
    (h : rewriteIndices gs rs seen ix = .ok ix') : ∀ i ∈ ix', ∃ i0 ∈ ix, i.fields = i0.fields ∧ i.name = i0.name := by
  induction rs generalizing seen ix with
  | nil => cases h; exact fun i hi => ⟨i, hi, rfl, rfl⟩
  | cons r rs ih =>
    obtain ⟨o, n⟩ := r
    unfold rewriteIndices at h
    split at h
    · cases h
    · split at h
      · cases h
      · rename_i ix1 h1
        intro i hi
        obtain ⟨i1, hi1, e1, e2⟩ := ih h i hi
        rcases rewriteIndex_ok h1 i1 hi1 with h2 | ⟨i0, h2, _, _, h3, h4, _⟩
        · exact ⟨i1, h2, e1, e2⟩
        · exact ⟨i0, h2, e1.trans h3, e2.trans h4⟩

/-- Remapped indices when the new uuids are new: every index is either untouched or remapped once. -/
theorem rewriteIndices_ok {gs : List Group} {rs : List (Nat × Nat)} {seen : List Nat} {ix ix' : List Idx}
    (hnew : ∀ r ∈ rs, ∀ r' ∈ rs, r.2 ≠ r'.1)
    (h : rewriteIndices gs rs seen ix = .ok ix') : ∀ i ∈ ix', i ∈ ix ∨ ∃ i0 ∈ ix, ∃ r ∈ rs, i0.uuid = r.1 ∧ i.uuid = r.2 ∧
      ∃ b b', i0.bitmap = some b ∧ i.bitmap = some b' ∧ recalc b gs = .ok b' := by
  induction rs generalizing seen ix with
  | nil => cases h; exact fun i hi => Or.inl hi
  | cons r rs ih =>
    obtain ⟨o, n⟩ := r
    unfold rewriteIndices at h
    split at h
    · cases h
    · split at h
      · cases h
      · rename_i ix1 h1
        intro i hi
        rcases ih (fun r hr r' hr' => hnew r (List.mem_cons_of_mem _ hr) r' (List.mem_cons_of_mem _ hr')) h i hi with
          h2 | ⟨i0, h2, r, hr, h3, h4, h5⟩
        · rcases rewriteIndex_ok h1 i h2 with h2 | ⟨i0, h2, h3, h4, _, _, h5⟩
          · exact Or.inl h2
          · exact Or.inr ⟨i0, h2, (o, n), List.mem_cons_self, h3, h4, h5⟩
        · rcases rewriteIndex_ok h1 i0 h2 with h6 | ⟨i1, h6, h7, h8, _⟩
          · exact Or.inr ⟨i0, h6, r, List.mem_cons_of_mem _ hr, h3, h4, h5⟩
          · exact absurd (h8.symm.trans h3) (hnew (o, n) List.mem_cons_self r (List.mem_cons_of_mem _ hr))

theorem small_all {H : Hist} (hv : Valid H) {v : Nat} {e : Entry} (he : H.look v = some e) :
    ∀ f ∈ e.m.frags, f.id < U32 := by
  induction v using Nat.strongRecOn generalizing e with
  | ind v ih =>
    have hle := look_le he
    by_cases h1 : v = 1
    · subst h1
      obtain ⟨_, _, _, hatt⟩ := valid_first hv he
      intro f hf
      have := le_maxId hf
      have := (attemptNew_build hatt).small
      omega
    · obtain ⟨p, hp⟩ := look_exists (h := H) (v := v - 1) (by omega) (by omega)
      have hst := valid_step hv (v := v - 1) (by omega) (by rw [Nat.sub_add_cancel (by omega)]; exact he) hp
      obtain ⟨rd, hatt, hrd⟩ := hst.att
      by_cases hres : ∃ w, e.job.tx.op = .restore w
      · obtain ⟨w, hop⟩ := hres
        obtain ⟨m0, hl, hf, _⟩ := attempt_restore hop hatt
        obtain ⟨hw, e0, h3, h4⟩ := hrd w _ hl
        simp only [Prod.mk.injEq] at h4
        rw [hf, h4.1]
        exact ih w (by omega) h3
      · have hbl : Built (some p.m) p.ix _ _ _ := (attempt_build (fun w h => hres ⟨w, h⟩) hatt).1
        intro f hf
        have := le_maxId hf
        have := hbl.small
        omega

/-- In every reachable history: after a committed compaction each index is one of the previous version,
unchanged, or covers exactly the new fragments of completely covered groups and the fragments it covered
that were not rewritten.  With stable row ids every index with a bitmap is of the second kind. -/
theorem C27_compaction_coverage {s : Sys} (hr : Reach s) (hc : s.hist.Clean) {t : Nat} {e p : Entry}
    (hp : s.hist.look t = some p) (he : s.hist.look (t + 1) = some e) {gs : List Group} {r : List (Nat × Nat)}
    (hop : e.job.tx.op = .rewrite gs r) (hnew : ∀ x ∈ r, ∀ y ∈ r, x.2 ≠ y.1) :
    ∀ i ∈ e.ix, (i ∈ p.ix ∧ (p.m.usesStable = true → i.bitmap = none)) ∨
      ∃ i0 ∈ p.ix, ∃ b b', i0.bitmap = some b ∧ i.bitmap = some b' ∧ CoverAfter b b' gs ∧
        ∀ g ∈ gs, Covered b g ∨ ∀ f ∈ g.old, f.id ∉ b := by
  have hv := valid_of_reach hr
  obtain ⟨hok, hfr⟩ := all_ok hv hc
  have h1 := (look_le hp).1
  have hlt : t < s.hist.length := by have := look_le he; omega
  have hst := valid_step hv h1 he hp
  obtain ⟨rd, hatt, _⟩ := hst.att
  obtain ⟨b, hb, hprep⟩ := hst.prep
  have hbl : Built (some p.m) p.ix _ _ _ := (attempt_build (by intro w; rw [hop]; intro h; cases h) hatt).1
  have hperm := rewrite_built hbl (hok t p hp) hop (freshOp_of hfr hlt h1 he hp hprep)
  have hfresh := (hfr t e p hlt h1 he hp gs r hop).2
  unfold Prepared at hprep
  rw [hop] at hprep
  have hso : ∀ g ∈ gs, ∀ f ∈ g.old, f.id < U32 := fun g hg f hf => small_all hv hb f (hprep.1 g hg f hf)
  have hsn : ∀ g ∈ gs, ∀ f ∈ g.new, f.id < U32 := fun g hg f hf =>
    small_all hv he f (hperm.mem_iff.2 (List.mem_append_right _ (List.mem_flatMap.2 ⟨g, hg, hf⟩)))
  have hfr' : ∀ g ∈ gs, ∀ f ∈ g.new, ∀ g' ∈ gs, ∀ f' ∈ g'.old, f.id ≠ f'.id := fun g hg f hf g' hg' f' hf' heq =>
    hfresh g hg f hf g' hg' (heq ▸ mem_ids_of hf')
  obtain ⟨schema, nr, fs, nr', k1, k2, k3, k4, k5, k6⟩ := hbl.arms
  obtain ⟨s1, s2⟩ := startRowId_base k2
  rw [hop] at k3
  simp only [opArms, Option.map_some] at k3
  split at k3
  · cases k3
  · cases nr with
    | none =>
      simp only at k3
      split at k3
      · cases k3
      · rename_i ix' hx
        simp only [Except.ok.injEq, Prod.mk.injEq] at k3
        rw [← k3.2.2]
        intro i hi
        rcases rewriteIndices_ok hnew hx i hi with h2 | ⟨i0, h2, _, _, _, _, b0, b', h3, h4, h5⟩
        · refine Or.inl ⟨h2, fun h => ?_⟩
          rw [h] at s2; cases s2
        · exact Or.inr ⟨i0, h2, b0, b', h3, h4, C27_recalculate hso hsn hfr' h5⟩
    | some n =>
      simp only at k3
      split at k3
      · cases k3
      · rename_i ix' hx
        simp only [Except.ok.injEq, Prod.mk.injEq] at k3
        rw [← k3.2.2]
        intro i hi
        obtain ⟨i0, h2, _, _, h3⟩ := recalcAll_ok hx i hi
        rcases h3 with ⟨h3, h4⟩ | ⟨b0, b', h3, h4, h5⟩
        · subst h3; exact Or.inl ⟨h2, fun _ => h4⟩
        · exact Or.inr ⟨i0, h2, b0, b', h3, h4, C27_recalculate hso hsn hfr' h5⟩

/-- An index over fragments 0 and 1, compacted into fragment 2 and remapped. -/
def x27 : Option Hist :=
  play false (xcreate [xnew 1 3, xnew 2 2])
    [xtx 1 101 (.createIndex [⟨500, 1, [0], some [0, 1]⟩] []),
     xtx 2 102 (.reserve 1),
     xtx 2 103 (.rewrite [⟨[⟨0, [xf 1], none, none, some 3⟩, ⟨1, [xf 2], none, none, some 2⟩],
        [⟨2, [xf 9], none, none, some 5⟩]⟩] [(500, 501)]) false [3]]

example : x27.map (fun h => h.map (fun e => (e.ix.map (fun i => (i.uuid, i.bitmap)), e.m.frags.map (·.id)))) =
    some [([(501, some [2])], [2]), ([(500, some [0, 1])], [0, 1]), ([(500, some [0, 1])], [0, 1]), ([], [0, 1])] := by
  decide +kernel

/-! ## C49 -/

/-- Full claim: a commit that sets the schema (dropping columns, or a merge that adds or changes
columns) was made from the schema of the version it is committed on. -/
def C49_statement : Prop :=
  ∀ s, Reach s → s.hist.Clean → ∀ t e b p, s.hist.look (t + 1) = some e → s.hist.look e.job.tx.read = some b →
    s.hist.look t = some p → ((∃ x, e.job.tx.op = .project x) ∨ ∃ x y, e.job.tx.op = .merge x y) →
    p.m.schema = b.m.schema

theorem schema_kept {c : Manifest} {ix0 : List Idx} {tx : Tx} {m : Manifest} {ix : List Idx}
    (hb : Built (some c) ix0 tx m ix) (h1 : ∀ x y z, tx.op ≠ .overwrite x y z) (h2 : ∀ x y, tx.op ≠ .merge x y)
    (h3 : ∀ x, tx.op ≠ .project x) : m.schema = schemaAfter tx.op c.schema := by
  obtain ⟨schema, nr, fs, nr', k1, k2, k3, k4, k5, k6⟩ := hb.arms
  have : schema = c.schema := by
    unfold newSchema at k1
    cases hop : tx.op with
    | overwrite x y z => exact absurd hop (h1 x y z)
    | merge x y => exact absurd hop (h2 x y)
    | project x => exact absurd hop (h3 x)
    | _ => rw [hop] at k1; cases k1; rfl
  rw [k6, this]

/-- If no overwrite and no metadata update was committed in between, the schema a project or merge
started from is the schema it replaces. -/
theorem C49_schema_partial {s : Sys} (hr : Reach s) (hc : s.hist.Clean) {t : Nat} {e b p : Entry}
    (he : s.hist.look (t + 1) = some e) (hb : s.hist.look e.job.tx.read = some b) (hp : s.hist.look t = some p)
    (hop : (∃ x, e.job.tx.op = .project x) ∨ ∃ x y, e.job.tx.op = .merge x y)
    (hno : ∀ u o, e.job.tx.read < u → u ≤ t → s.hist.look u = some o →
      (∀ x y z, o.job.tx.op ≠ .overwrite x y z) ∧
      ∀ x y sm fm, o.job.tx.op = .updateConfig x y sm fm → sm = none ∧ fm = none) :
    p.m.schema = b.m.schema := by
  have hv := valid_of_reach hr
  have h1 := (look_le hp).1
  have hst := valid_step hv h1 he hp
  have hchk := checked_ops hv hc h1 he hp
    (by rcases hop with ⟨x, h⟩ | ⟨x, y, h⟩ <;> rw [h] <;> intro x y z h <;> cases h)
    (by rcases hop with ⟨x, h⟩ | ⟨x, y, h⟩ <;> rw [h] <;> intro x y z w h <;> cases h)
  have hrle := hst.rle
  have hr1 := (look_le hb).1
  have htl := (look_le hp).2
  clear he hst h1
  induction t generalizing p with
  | zero => omega
  | succ n ih =>
    by_cases hcs : e.job.tx.read = n + 1
    · rw [hcs] at hb; rw [hb] at hp; cases hp; rfl
    · obtain ⟨q, hq⟩ := look_exists (h := s.hist) (v := n) (by omega) (by omega)
      have hqs : q.m.schema = b.m.schema :=
        ih hq (fun u o h2 h3 => hno u o h2 (by omega)) (fun u o h2 h3 => hchk u o h2 (by omega)) (by omega) (by omega)
      rw [← hqs]
      obtain ⟨n1, n2⟩ := hno (n + 1) p (by omega) (by omega) hp
      have hcf := hchk (n + 1) p (by omega) (by omega) hp
      have hsafe : (∃ x y, p.job.tx.op = .createIndex x y) ∨ (∃ x, p.job.tx.op = .reserve x) ∨
          ∃ x y, p.job.tx.op = .updateConfig x y none none := by
        cases hpo : p.job.tx.op with
        | createIndex x y => exact Or.inl ⟨x, y, rfl⟩
        | reserve x => exact Or.inr (Or.inl ⟨x, rfl⟩)
        | updateConfig x y z w =>
          obtain ⟨h1, h2⟩ := n2 x y z w hpo
          subst h1; subst h2; exact Or.inr (Or.inr ⟨x, y, rfl⟩)
        | overwrite x y z => exact absurd hpo (n1 x y z)
        | _ =>
          rw [hpo] at hcf
          rcases hop with ⟨x, hop⟩ | ⟨x, y, hop⟩ <;> rw [hop] at hcf <;> cases hcf
      obtain ⟨rd, hatt, _⟩ := (valid_step hv (by omega) hp hq).att
      have hbl : Built (some q.m) q.ix _ _ _ := (attempt_build
        (by rcases hsafe with ⟨x, y, h⟩ | ⟨x, h⟩ | ⟨x, y, h⟩ <;> rw [h] <;> intro w h <;> cases h) hatt).1
      have := schema_kept hbl
        (by rcases hsafe with ⟨x, y, h⟩ | ⟨x, h⟩ | ⟨x, y, h⟩ <;> rw [h] <;> intro a b c h <;> cases h)
        (by rcases hsafe with ⟨x, y, h⟩ | ⟨x, h⟩ | ⟨x, y, h⟩ <;> rw [h] <;> intro a b h <;> cases h)
        (by rcases hsafe with ⟨x, y, h⟩ | ⟨x, h⟩ | ⟨x, y, h⟩ <;> rw [h] <;> intro a h <;> cases h)
      rw [this]
      rcases hsafe with ⟨x, y, h⟩ | ⟨x, h⟩ | ⟨x, y, h⟩ <;> rw [h] <;> rfl

/-- A projection committed after a concurrent index creation and config change. -/
example : (play false (xcreate [xnew 1 3])
    [xtx 1 101 (.createIndex [⟨500, 1, [0], some [0]⟩] []), xtx 1 102 (.updateConfig (some [(5, 50)]) none none none),
     xtx 1 103 (.project ⟨[(0, [])], []⟩)]).map (fun h => h.map (fun e => e.m.schema.fields)) =
    some [[(0, [])], [(0, [])], [(0, [])], [(0, [])]] := by decide +kernel

/-- A metadata update committed between the read and the commit of a projection is undone by it. -/
theorem C49_metadata_violated : ¬ C49_statement := by
  intro hst
  obtain ⟨s, k, h1, _, hc, ⟨e, he, q1, q2⟩, ⟨a, ha, r1⟩, b, hb, u1⟩ := play_ex (cached := false) (j := xcreate [xnew 1 3])
    (js := [xtx 1 101 (.updateConfig none none (some [(7, 70)]) none), xtx 1 102 (.project xschema)])
    (fun h => h.At 3 (fun e => e.job.tx.read = 1 ∧ e.job.tx.op = .project xschema) ∧
      h.At 1 (fun e => e.m.schema.md = []) ∧ h.At 2 (fun e => e.m.schema.md = [(7, 70)])) (by decide +kernel)
  have := hst s h1 hc 2 e a b he (by rw [q1]; exact ha) hb (Or.inl ⟨_, q2⟩)
  rw [this, r1] at u1
  cases u1

/-- A projection also undoes the schema of an overwrite committed in between. -/
theorem C49_overwrite_violated : ¬ C49_statement := by
  intro hst
  obtain ⟨s, k, h1, _, hc, ⟨e, he, q1, q2⟩, ⟨a, ha, r1⟩, b, hb, u1⟩ := play_ex (cached := false) (j := xcreate [xnew 1 3])
    (js := [xtx 1 101 (.overwrite [xnew 2 4] ⟨[(0, []), (1, [])], []⟩ none), xtx 1 102 (.project xschema)])
    (fun h => h.At 3 (fun e => e.job.tx.read = 1 ∧ e.job.tx.op = .project xschema) ∧
      h.At 1 (fun e => e.m.schema.fields.length = 1) ∧ h.At 2 (fun e => e.m.schema.fields.length = 2))
    (by decide +kernel)
  have := hst s h1 hc 2 e a b he (by rw [q1]; exact ha) hb (Or.inl ⟨_, q2⟩)
  rw [this, r1] at u1
  cases u1

/-! ## C50 -/

/-- Every field of every index is a field of the schema. -/
def IxOk (e : Entry) : Prop := ∀ i ∈ e.ix, ∀ f ∈ i.fields, f ∈ e.m.schema.fields.map (·.1)

/-- Full claim. -/
def C50_statement : Prop := ∀ s, Reach s → s.hist.Clean → ∀ v e, s.hist.look v = some e → IxOk e

theorem setFieldMd_ids (s : Schema) (id : Nat) (md : Cfg) :
    (s.setFieldMd id md).fields.map (·.1) = s.fields.map (·.1) := by
  have : ∀ l : List (Int × Cfg), (Schema.setFieldMd.go id md l).map (·.1) = l.map (·.1) := by
    intro l
    induction l with
    | nil => rfl
    | cons x l ih =>
      obtain ⟨i, m⟩ := x
      unfold Schema.setFieldMd.go
      split
      · rfl
      · simp only [List.map_cons, ih]
  exact this _

theorem schemaAfter_ids (op : Op) (s : Schema) : (schemaAfter op s).fields.map (·.1) = s.fields.map (·.1) := by
  unfold schemaAfter
  split
  · rename_i x y smd fmd
    have hf : ∀ (l : SMap Cfg) (s : Schema),
        (l.foldl (fun s e => s.setFieldMd e.1 e.2) s).fields.map (·.1) = s.fields.map (·.1) := by
      intro l
      induction l with
      | nil => intro s; rfl
      | cons e l ih => intro s; rw [List.foldl_cons, ih, setFieldMd_ids]
    cases smd <;> cases fmd <;> simp only [hf]
  · rfl

theorem retain_ok {ix : List Idx} {schema : Schema} {fs : List Frag} {i : Idx} (h : i ∈ retainIndices ix schema fs) :
    ∀ f ∈ i.fields, f ∈ schema.fields.map (·.1) := by
  have h1 := (List.mem_filter.1 (List.mem_filter.1 h).1).2
  intro f hf
  have := List.all_eq_true.1 h1 f hf
  simpa using this

/-- The indices after a commit refer to existing fields if those before did and, for an index creation,
the fields of the new indices still exist. -/
theorem ixOk_built {c : Manifest} {ix0 : List Idx} {tx : Tx} {m : Manifest} {ix : List Idx}
    (hb : Built (some c) ix0 tx m ix)
    (h0 : ∀ i ∈ ix0, ∀ f ∈ i.fields, f ∈ c.schema.fields.map (·.1))
    (hnew : ∀ x y, tx.op = .createIndex x y → ∀ i ∈ x, ∀ f ∈ i.fields, f ∈ c.schema.fields.map (·.1)) :
    ∀ i ∈ ix, ∀ f ∈ i.fields, f ∈ m.schema.fields.map (·.1) := by
  obtain ⟨schema, nr, fs, nr', k1, k2, k3, k4, k5, k6⟩ := hb.arms
  rw [k6, schemaAfter_ids]
  cases hop : tx.op with
  | append x =>
    rw [hop] at k1 k3
    simp only [newSchema, Except.ok.injEq] at k1
    subst k1
    simp only [opArms, Option.map_some] at k3
    split at k3
    · cases k3
    · simp only [Except.ok.injEq, Prod.mk.injEq] at k3
      rw [← k3.2.2]; exact h0
  | delete x y z =>
    rw [hop] at k3
    simp only [opArms, Option.map_some, Except.ok.injEq, Prod.mk.injEq] at k3
    rw [← k3.2.2]; exact fun i hi => retain_ok hi
  | update x y z =>
    rw [hop] at k3
    simp only [opArms, Option.map_some] at k3
    split at k3
    · cases k3
    · simp only [Except.ok.injEq, Prod.mk.injEq] at k3
      rw [← k3.2.2]; exact fun i hi => retain_ok hi
  | overwrite x y z =>
    rw [hop] at k3
    simp only [opArms] at k3
    split at k3
    · cases k3
    · simp only [Except.ok.injEq, Prod.mk.injEq] at k3
      rw [← k3.2.2]; intro i hi; cases hi
  | rewrite gs r =>
    rw [hop] at k1 k3
    simp only [newSchema, Except.ok.injEq] at k1
    subst k1
    simp only [opArms, Option.map_some] at k3
    split at k3
    · cases k3
    · cases nr with
      | none =>
        simp only at k3
        split at k3
        · cases k3
        · rename_i ix' hx
          simp only [Except.ok.injEq, Prod.mk.injEq] at k3
          rw [← k3.2.2]
          intro i hi f hf
          obtain ⟨i0, h1, h2, _⟩ := rewriteIndices_fields hx i hi
          exact h0 i0 h1 f (h2 ▸ hf)
      | some n =>
        simp only at k3
        split at k3
        · cases k3
        · rename_i ix' hx
          simp only [Except.ok.injEq, Prod.mk.injEq] at k3
          rw [← k3.2.2]
          intro i hi f hf
          obtain ⟨i0, h1, h2, _⟩ := recalcAll_ok hx i hi
          exact h0 i0 h1 f (h2 ▸ hf)
  | createIndex x y =>
    rw [hop] at k1 k3
    simp only [newSchema, Except.ok.injEq] at k1
    subst k1
    simp only [opArms, Option.map_some, Except.ok.injEq, Prod.mk.injEq] at k3
    rw [← k3.2.2]
    intro i hi
    rcases List.mem_append.1 hi with hi | hi
    · exact h0 i (List.mem_filter.1 hi).1
    · exact hnew x y hop i hi
  | reserve x =>
    rw [hop] at k1 k3
    simp only [newSchema, Except.ok.injEq] at k1
    subst k1
    simp only [opArms, Option.map_some, Except.ok.injEq, Prod.mk.injEq] at k3
    rw [← k3.2.2]; exact h0
  | updateConfig x y z w =>
    rw [hop] at k1 k3
    simp only [newSchema, Except.ok.injEq] at k1
    subst k1
    simp only [opArms, Option.map_some, Except.ok.injEq, Prod.mk.injEq] at k3
    rw [← k3.2.2]; exact h0
  | merge x y =>
    rw [hop] at k3
    simp only [opArms, Except.ok.injEq, Prod.mk.injEq] at k3
    rw [← k3.2.2]; exact fun i hi => retain_ok hi
  | project x =>
    rw [hop] at k3
    simp only [opArms, Option.map_some, Except.ok.injEq, Prod.mk.injEq] at k3
    rw [← k3.2.2]; exact fun i hi => retain_ok hi
  | restore w => rw [hop] at k3; cases k3
  | dataReplacement rs =>
    rw [hop] at k1 k3
    simp only [newSchema, Except.ok.injEq] at k1
    subst k1
    simp only [opArms, Option.map_some] at k3
    split at k3
    · cases k3
    · split at k3
      · cases k3
      · simp only [Except.ok.injEq, Prod.mk.injEq] at k3
        rw [← k3.2.2]; exact h0

/-- The field ids of the schema do not change over versions committed by operations that an index
creation does not conflict with, except a merge. -/
theorem fields_kept {H : Hist} (hv : Valid H) {a t : Nat} {b p : Entry} (ha : 1 ≤ a) (hat : a ≤ t)
    (hb : H.look a = some b) (hp : H.look t = some p)
    (hno : ∀ u o, a < u → u ≤ t → H.look u = some o →
      (∀ x y z, o.job.tx.op ≠ .overwrite x y z) ∧ (∀ x y, o.job.tx.op ≠ .merge x y) ∧ (∀ x, o.job.tx.op ≠ .project x) ∧
      ∀ w, o.job.tx.op ≠ .restore w) :
    p.m.schema.fields.map (·.1) = b.m.schema.fields.map (·.1) := by
  have htl := (look_le hp).2
  induction t generalizing p with
  | zero => omega
  | succ n ih =>
    by_cases hcs : a = n + 1
    · subst hcs; rw [hb] at hp; cases hp; rfl
    · obtain ⟨q, hq⟩ := look_exists (h := H) (v := n) (by omega) (by omega)
      rw [← ih (by omega) hq (fun u o h2 h3 => hno u o h2 (by omega)) (by omega)]
      obtain ⟨n1, n2, n3, n4⟩ := hno (n + 1) p (by omega) (by omega) hp
      obtain ⟨rd, hatt, _⟩ := (valid_step hv (by omega) hp hq).att
      have hbl : Built (some q.m) q.ix _ _ _ := (attempt_build n4 hatt).1
      rw [schema_kept hbl n1 n2 n3, schemaAfter_ids]

/-- If no index creation was committed over a concurrent merge, every index of every version refers to
existing fields. -/
theorem C50_indexed_fields_exist_partial {s : Sys} (hr : Reach s) (hc : s.hist.Clean)
    (hno : ∀ v e x y, s.hist.look v = some e → e.job.tx.op = .createIndex x y →
      ∀ u o, e.job.tx.read < u → u < v → s.hist.look u = some o → ∀ x y, o.job.tx.op ≠ .merge x y)
    {v : Nat} {e : Entry} (he : s.hist.look v = some e) : IxOk e := by
  have hv := valid_of_reach hr
  induction v using Nat.strongRecOn generalizing e with
  | ind v ih =>
    have hle := look_le he
    by_cases h1 : v = 1
    · subst h1
      obtain ⟨⟨fs, sch, up, hop, _⟩, _, _, hatt⟩ := valid_first hv he
      obtain ⟨schema, nr, fs', nr', k1, k2, k3, _⟩ := (attemptNew_build hatt).arms
      rw [hop] at k3
      simp only [opArms] at k3
      split at k3
      · cases k3
      · simp only [Except.ok.injEq, Prod.mk.injEq] at k3
        intro i hi
        rw [← k3.2.2] at hi; cases hi
    · obtain ⟨t, rfl⟩ : ∃ t, v = t + 1 := ⟨v - 1, by omega⟩
      obtain ⟨p, hp⟩ := look_exists (h := s.hist) (v := t) (by omega) (by omega)
      have hst := valid_step hv (by omega) he hp
      obtain ⟨rd, hatt, hrd⟩ := hst.att
      by_cases hres : ∃ w, e.job.tx.op = .restore w
      · obtain ⟨w, hop⟩ := hres
        obtain ⟨m0, hl, h2, h3, h4, h5, h6, _⟩ := attempt_restore hop hatt
        obtain ⟨hw, e0, h7, h8⟩ := hrd w _ hl
        simp only [Prod.mk.injEq] at h8
        rw [h8.1] at h5
        have := ih w (by omega) h7
        unfold IxOk at this ⊢
        rw [h8.2, h5]; exact this
      · have hbl : Built (some p.m) p.ix _ _ _ := (attempt_build (fun w h => hres ⟨w, h⟩) hatt).1
        refine ixOk_built hbl (ih t (by omega) hp) ?_
        intro x y hop
        obtain ⟨b, hb, hprep⟩ := hst.prep
        unfold Prepared at hprep
        rw [hop] at hprep
        have hchk := checked_ops hv hc (by omega) he hp (by rw [hop]; intro x y z h; cases h)
          (by rw [hop]; intro x y z w h; cases h)
        rw [fields_kept hv (look_le hb).1 hst.rle hb hp ?_]
        · exact hprep
        · intro u o h2 h3 h4
          have h5 := hchk u o h2 h3 h4
          have h6 := hno (t + 1) e x y he hop u o h2 (by omega) h4
          rw [hop] at h5
          refine ⟨fun a b c h => ?_, h6, fun a h => ?_, fun a h => ?_⟩ <;> rw [h] at h5 <;> cases h5

/-- An index created concurrently with an append; then the column is dropped. -/
example : (play false (xtx 0 100 (.overwrite [xnew 1 3] ⟨[(0, []), (1, [])], []⟩ none))
    [xtx 1 101 (.append [xnew 2 1]), xtx 1 102 (.createIndex [⟨500, 1, [1], some [0]⟩] []),
     xtx 3 103 (.project ⟨[(0, [])], []⟩)]).map (fun h => h.map (fun e => (e.m.schema.fields.map (·.1), e.ix.map (·.fields)))) =
    some [([0], []), ([0, 1], [[1]]), ([0, 1], []), ([0, 1], [])] := by decide +kernel

/-- `CreateIndex` does not conflict with `Merge`: an index over a column that a concurrent merge dropped
is committed. -/
theorem C50_merge_violated : ¬ C50_statement := by
  intro hst
  obtain ⟨s, k, h1, _, hc, e, he, i, hi, f, hf, hn⟩ := play_ex (cached := false)
    (j := xtx 0 100 (.overwrite [xnew 1 3] ⟨[(0, []), (1, [])], []⟩ none))
    (js := [xtx 1 101 (.merge [⟨0, [xf 1], none, none, some 3⟩] ⟨[(0, [])], []⟩),
      xtx 1 102 (.createIndex [⟨500, 1, [1], some [0]⟩] [])])
    (fun h => h.At 3 (fun e => ∃ i ∈ e.ix, ∃ f ∈ i.fields, f ∉ e.m.schema.fields.map (·.1))) (by decide +kernel)
  exact hn (hst s h1 hc 3 e he i hi f hf)

end Verif.Txn
