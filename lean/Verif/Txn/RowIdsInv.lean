import Verif.Txn.Lineage
/-!
# Row ids along a history
-/
namespace Verif.Txn

theorem flatMap_disjoint {α β : Type} {l : List α} {f : α → List β} (h : (l.flatMap f).Nodup) {x y : α}
    (hx : x ∈ l) (hy : y ∈ l) (hne : x ≠ y) {b : β} (hb : b ∈ f x) : b ∉ f y := by
  induction l with
  | nil => cases hx
  | cons a l ih =>
    rw [List.flatMap_cons, List.nodup_append] at h
    obtain ⟨h1, h2, h3⟩ := h
    intro hb'
    rcases List.mem_cons.1 hx with e1 | hx' <;> rcases List.mem_cons.1 hy with e2 | hy'
    · exact hne (e1.trans e2.symm)
    · subst e1; exact h3 b hb b (List.mem_flatMap.2 ⟨y, hy', hb'⟩) rfl
    · subst e2; exact h3 b hb' b (List.mem_flatMap.2 ⟨x, hx', hb⟩) rfl
    · exact ih h2 hx' hy' hb'

theorem flatMap_nodup_part {α β : Type} {l : List α} {f : α → List β} (h : (l.flatMap f).Nodup) {x : α}
    (hx : x ∈ l) : (f x).Nodup := by
  induction l with
  | nil => cases hx
  | cons a l ih =>
    rw [List.flatMap_cons, List.nodup_append] at h
    rcases List.mem_cons.1 hx with e1 | hx
    · subst e1; exact h.1
    · exact ih h.2.1 hx

theorem flatMap_nodup {α β : Type} {l : List α} {f : α → List β} (h1 : l.Nodup) (h2 : ∀ x ∈ l, (f x).Nodup)
    (h3 : ∀ x ∈ l, ∀ y ∈ l, x ≠ y → ∀ b ∈ f x, b ∉ f y) : (l.flatMap f).Nodup := by
  induction l with
  | nil => exact List.nodup_nil
  | cons a l ih =>
    rw [List.nodup_cons] at h1
    rw [List.flatMap_cons, List.nodup_append]
    refine ⟨h2 a List.mem_cons_self, ih h1.2 (fun x hx => h2 x (List.mem_cons_of_mem _ hx))
      (fun x hx y hy => h3 x (List.mem_cons_of_mem _ hx) y (List.mem_cons_of_mem _ hy)), ?_⟩
    intro b hb c hc hbc
    subst hbc
    obtain ⟨y, hy, hby⟩ := List.mem_flatMap.1 hc
    exact h3 a List.mem_cons_self y (List.mem_cons_of_mem _ hy) (fun h => h1.1 (h ▸ hy)) b hb hby

/-- Row ids of one fragment. -/
def Frag.rids (f : Frag) : List Nat := f.rowIds.getD []

theorem rowIdsOf_eq (fs : List Frag) : rowIdsOf fs = fs.flatMap Frag.rids := rfl

theorem mem_rowIdsOf {fs : List Frag} {i : Nat} : i ∈ rowIdsOf fs ↔ ∃ f ∈ fs, i ∈ f.rids := List.mem_flatMap

/-- Row ids of a version: distinct, below the next row id; if present, as many as rows. -/
structure RInv (m : Manifest) : Prop where
  nodup : (rowIdsOf m.frags).Nodup
  lt : ∀ i ∈ rowIdsOf m.frags, i < m.nextRow
  len : ∀ f ∈ m.frags, ∀ l, f.rowIds = some l → f.phys = some l.length

theorem nodup_of_ids {fs : List Frag} (h : (ids fs).Nodup) : fs.Nodup := by
  unfold ids at h
  exact (List.pairwise_map.1 h).imp (fun {a b} hne he => hne (congrArg Frag.id he))

/-- Fragments kept from `c` (possibly with more deletions) together with new ones. -/
theorem rinv_parts {c m : Manifest} {N : List Frag} (hm : (ids m.frags).Nodup) (hc : RInv c)
    (hN : (rowIdsOf N).Nodup) (hNl : ∀ f ∈ N, ∀ l, f.rowIds = some l → f.phys = some l.length)
    (hparts : ∀ g ∈ m.frags, (∃ f ∈ c.frags, f.Later g) ∨ g ∈ N)
    (hdis : ∀ g ∈ m.frags, ∀ f ∈ c.frags, f.Later g → ∀ i ∈ rowIdsOf N, i ∉ f.rids ∨ g ∈ N)
    (hnext : c.nextRow ≤ m.nextRow) (hlt : ∀ i ∈ rowIdsOf N, i < m.nextRow) : RInv m := by
  refine ⟨?_, ?_, ?_⟩
  · rw [rowIdsOf_eq]
    refine flatMap_nodup (nodup_of_ids hm) ?_ ?_
    · intro g hg
      rcases hparts g hg with ⟨f, hf, hl⟩ | h
      · have : g.rids = f.rids := by unfold Frag.rids; rw [hl.2.2.1]
        rw [this]
        exact flatMap_nodup_part (f := Frag.rids) hc.nodup hf
      · exact flatMap_nodup_part (f := Frag.rids) hN h
    · intro x hx y hy hne i hix hiy
      have hidne : x.id ≠ y.id := fun h => hne (nodup_ids_eq hm hx hy h)
      by_cases hxN : x ∈ N
      · by_cases hyN : y ∈ N
        · exact flatMap_disjoint (f := Frag.rids) hN hxN hyN hne hix hiy
        · rcases hparts y hy with ⟨f, hf, hl⟩ | h
          · have e : y.rids = f.rids := by unfold Frag.rids; rw [hl.2.2.1]
            rcases hdis y hy f hf hl i (mem_rowIdsOf.2 ⟨x, hxN, hix⟩) with h | h
            · exact h (e ▸ hiy)
            · exact hyN h
          · exact hyN h
      · rcases hparts x hx with ⟨f, hf, hl⟩ | h
        · have e : x.rids = f.rids := by unfold Frag.rids; rw [hl.2.2.1]
          by_cases hyN : y ∈ N
          · rcases hdis x hx f hf hl i (mem_rowIdsOf.2 ⟨y, hyN, hiy⟩) with h | h
            · exact h (e ▸ hix)
            · exact hxN h
          · rcases hparts y hy with ⟨f', hf', hl'⟩ | h
            · have e' : y.rids = f'.rids := by unfold Frag.rids; rw [hl'.2.2.1]
              refine flatMap_disjoint (f := Frag.rids) hc.nodup hf hf' ?_ (e ▸ hix) (e' ▸ hiy)
              intro h
              subst h
              exact hidne (hl.1.trans hl'.1.symm)
            · exact hyN h
        · exact hxN h
  · intro i hi
    obtain ⟨g, hg, hig⟩ := mem_rowIdsOf.1 hi
    rcases hparts g hg with ⟨f, hf, hl⟩ | h
    · have e : g.rids = f.rids := by unfold Frag.rids; rw [hl.2.2.1]
      have := hc.lt i (mem_rowIdsOf.2 ⟨f, hf, e ▸ hig⟩)
      omega
    · exact hlt i (mem_rowIdsOf.2 ⟨g, h, hig⟩)
  · intro g hg l hl'
    rcases hparts g hg with ⟨f, hf, hl⟩ | h
    · rw [hl.2.1]; exact hc.len f hf l (by rw [← hl.2.2.1]; exact hl')
    · exact hNl g h l hl'

theorem assignRowIds_len {fs r : List Frag} {n n' : Nat} (h : assignRowIds fs n = .ok (r, n')) :
    ∀ f ∈ r, ∀ l, f.rowIds = some l → f.phys = some l.length := by
  induction fs generalizing n r n' with
  | nil => simp only [assignRowIds, Except.ok.injEq, Prod.mk.injEq] at h; rw [← h.1]; intro f hf; cases hf
  | cons f fs ih =>
    unfold assignRowIds at h
    split at h
    · cases h
    · rename_i p hp
      split at h
      · cases h
      · rename_i r' n'' hr
        simp only [Except.ok.injEq, Prod.mk.injEq] at h
        rw [← h.1]
        intro g hg l hl
        rcases List.mem_cons.1 hg with e | hg
        · subst e
          simp only [Option.some.injEq] at hl
          rw [← hl]; simp [hp]
        · exact ih hr g hg l hl

/-- New fragments after ids and row ids have been assigned. -/
theorem assigned {new r : List Frag} {nr nr' : Option Nat} {k base : Nat} (hnew : ∀ f ∈ new, NewFrag f)
    (h : assignIf nr (withIds new k).1 = .ok (r, nr')) (hb : ∀ n, nr = some n → n = base) :
    (rowIdsOf r).Nodup ∧ (∀ f ∈ r, ∀ l, f.rowIds = some l → f.phys = some l.length) ∧
      base ≤ nr'.getD base ∧ (∀ i ∈ rowIdsOf r, base ≤ i ∧ i < nr'.getD base) ∧
      (∀ f ∈ r, f.rowIds.isSome = nr.isSome) ∧ (∀ f ∈ r, f.del = none) ∧ ∀ i ∈ ids r, k ≤ i := by
  have hz : ∀ f ∈ new, f.id = 0 := fun f hf => (hnew f hf).1
  obtain ⟨w1, w2, w3⟩ := withIds_zero hz k
  obtain ⟨a1, a2, a3, a4⟩ := assignIf_ok h
  have hid : ∀ i ∈ ids r, k ≤ i := by
    intro i hi
    rw [a1, w1, List.mem_range'_1] at hi
    exact hi.1
  have hdel : ∀ f ∈ r, f.del = none := by
    intro f hf
    obtain ⟨f1, hf1, e1⟩ := a2 f hf
    obtain ⟨f2, hf2, e2⟩ := w3 f1 hf1
    have h2 := (hnew f2 hf2).2.1
    rw [e1]; show f1.del = none
    rw [e2]; exact h2
  cases hnr : nr with
  | none =>
    obtain ⟨b1, b2⟩ := a3 hnr
    have hno : ∀ f ∈ r, f.rowIds = none := by
      intro f hf
      rw [b1] at hf
      obtain ⟨f2, hf2, e2⟩ := w3 f hf
      rw [e2]; exact (hnew f2 hf2).2.2.1
    have hempty : ∀ i, i ∉ rowIdsOf r := by
      intro i hi
      obtain ⟨f, hf, hif⟩ := mem_rowIdsOf.1 hi
      unfold Frag.rids at hif
      rw [hno f hf] at hif; cases hif
    refine ⟨?_, ?_, by rw [b2]; exact Nat.le_refl _, fun i hi => absurd hi (hempty i), ?_, hdel, hid⟩
    · rw [List.eq_nil_iff_forall_not_mem.2 hempty]; exact List.nodup_nil
    · intro f hf l hl; rw [hno f hf] at hl; cases hl
    · intro f hf; rw [hno f hf]; rfl
  | some n =>
    obtain ⟨n', c1, c2, c3, c4⟩ := a4 n hnr
    have hnb := hb n hnr
    subst hnb
    refine ⟨by rw [c3]; exact List.nodup_range', ?_, by rw [c1]; exact c2, ?_, fun f hf => by rw [c4 f hf]; rfl, hdel, hid⟩
    · rw [hnr] at h
      unfold assignIf at h
      simp only at h
      split at h
      · cases h
      · rename_i r' m' hr
        simp only [Except.ok.injEq, Prod.mk.injEq] at h
        rw [← h.1]
        exact assignRowIds_len hr
    · intro i hi
      rw [c3, List.mem_range'_1] at hi
      rw [c1]; simp only [Option.getD_some]
      omega

theorem startRowId_base {c : Manifest} {st : Bool} {nr : Option Nat} (h : startRowId (some c) st = .ok nr) :
    (∀ n, nr = some n → n = c.nextRow) ∧ nr.isSome = c.usesStable := by
  unfold startRowId at h
  simp only at h
  split at h
  · rename_i hs
    cases h
    exact ⟨fun n hn => (Option.some.inj hn).symm, by rw [hs]; rfl⟩
  · rename_i hs
    split at h
    · cases h
    · cases h
      exact ⟨fun n hn => (by cases hn), by simp [hs]⟩

/-- Row ids after an ordinary commit. -/
theorem rinv_step {H : Hist} (hv : Valid H) (hcl : H.Clean) {v : Nat} {e p : Entry} (h1 : 1 ≤ v)
    (he : H.look (v + 1) = some e) (hp : H.look v = some p) (hres : ∀ w, e.job.tx.op ≠ .restore w)
    (hrp : RInv p.m) :
    RInv e.m ∧ p.m.nextRow ≤ e.m.nextRow ∧ ∀ i ∈ rowIdsOf e.m.frags, i ∈ rowIdsOf p.m.frags ∨ p.m.nextRow ≤ i := by
  obtain ⟨hok, hfr⟩ := all_ok hv hcl
  have hst := valid_step hv h1 he hp
  obtain ⟨rd, hatt, _⟩ := hst.att
  obtain ⟨b, hb, hprep⟩ := hst.prep
  have hbl : Built (some p.m) p.ix _ _ _ := (attempt_build hres hatt).1
  have hem := (hok _ e he).nodup
  have hpm := (hok _ p hp).nodup
  obtain ⟨schema, nr, fs, nr', k1, k2, k3, k4, k5, k6⟩ := hbl.arms
  simp only [Option.map_some, Option.getD_some] at k5
  obtain ⟨s1, s2⟩ := startRowId_base k2
  have hmem : ∀ g, g ∈ e.m.frags ↔ g ∈ fs := by intro g; rw [k4, mem_sortBy]
  -- nothing new
  have plain : nr' = nr → (∀ x y z, e.job.tx.op ≠ .overwrite x y z) →
      (∀ g ∈ e.m.frags, g.id ∈ ids p.m.frags) →
      RInv e.m ∧ p.m.nextRow ≤ e.m.nextRow ∧ ∀ i ∈ rowIdsOf e.m.frags, i ∈ rowIdsOf p.m.frags ∨ p.m.nextRow ≤ i := by
    intro hnr hov hsub
    have hnx : e.m.nextRow = p.m.nextRow := by
      rw [k5, hnr]
      cases hn : nr with
      | none => rfl
      | some n => exact s1 n hn
    have hpart : ∀ g ∈ e.m.frags, ∃ f ∈ p.m.frags, f.Later g := by
      intro g hg
      obtain ⟨f, hf, hfi⟩ := mem_ids.1 (hsub g hg)
      exact ⟨f, hf, carry hv hcl h1 he hp hres hov hf hg hfi.symm⟩
    refine ⟨rinv_parts (N := []) hem hrp List.nodup_nil (fun f hf => by cases hf) (fun g hg => Or.inl (hpart g hg))
      (fun g hg f hf hl i hi => by cases hi) (by omega) (fun i hi => by cases hi), by omega, ?_⟩
    intro i hi
    obtain ⟨g, hg, hig⟩ := mem_rowIdsOf.1 hi
    obtain ⟨f, hf, hl⟩ := hpart g hg
    refine Or.inl (mem_rowIdsOf.2 ⟨f, hf, ?_⟩)
    unfold Frag.rids at *
    rw [← hl.2.2.1]; exact hig
  -- kept fragments and newly written ones
  have fresh : ∀ (new r : List Frag) (k : Nat), (∀ f ∈ new, NewFrag f) → assignIf nr (withIds new k).1 = .ok (r, nr') →
      (∀ g ∈ e.m.frags, (∃ f ∈ p.m.frags, f.Later g) ∨ g ∈ r) →
      RInv e.m ∧ p.m.nextRow ≤ e.m.nextRow ∧ ∀ i ∈ rowIdsOf e.m.frags, i ∈ rowIdsOf p.m.frags ∨ p.m.nextRow ≤ i := by
    intro new r k hnew has hpart
    obtain ⟨a1, a2, a3, a4, a5, a6, a7⟩ := assigned (base := p.m.nextRow) hnew has s1
    rw [← k5] at a3 a4
    refine ⟨rinv_parts (N := r) hem hrp a1 a2 hpart ?_ a3 (fun i hi => (a4 i hi).2), a3, ?_⟩
    · intro g hg f hf hl i hi
      refine Or.inl (fun hif => ?_)
      have := hrp.lt i (mem_rowIdsOf.2 ⟨f, hf, hif⟩)
      have := (a4 i hi).1
      omega
    · intro i hi
      obtain ⟨g, hg, hig⟩ := mem_rowIdsOf.1 hi
      rcases hpart g hg with ⟨f, hf, hl⟩ | h
      · refine Or.inl (mem_rowIdsOf.2 ⟨f, hf, ?_⟩)
        unfold Frag.rids at *
        rw [← hl.2.2.1]; exact hig
      · exact Or.inr (a4 i (mem_rowIdsOf.2 ⟨g, h, hig⟩)).1
  have hnewids := step_new_ids (c := p.m) hprep (fun gs r hop => hfr v e p (by have := look_le he; omega) h1 he hp gs r hop)
  cases hop : e.job.tx.op with
  | restore w => exact absurd hop (hres w)
  | append new =>
    have hov : ∀ x y z, e.job.tx.op ≠ .overwrite x y z := by rw [hop]; intro x y z h; cases h
    rw [hop] at k3
    unfold Prepared at hprep
    rw [hop] at hprep
    simp only [opArms, Option.map_some] at k3
    split at k3
    · cases k3
    · rename_i r nr1 ha
      simp only [Except.ok.injEq, Prod.mk.injEq] at k3
      obtain ⟨k31, k32, _⟩ := k3
      subst k32
      refine fresh new r _ hprep ha ?_
      intro g hg
      rw [hmem, ← k31, List.mem_append] at hg
      rcases hg with hg | hg
      · exact Or.inl ⟨g, hg, Frag.Later.refl _⟩
      · exact Or.inr hg
  | update rem ups new =>
    have hov : ∀ x y z, e.job.tx.op ≠ .overwrite x y z := by rw [hop]; intro x y z h; cases h
    have hprep' := hprep
    rw [hop] at k3
    unfold Prepared at hprep'
    rw [hop] at hprep'
    simp only [opArms, Option.map_some] at k3
    split at k3
    · cases k3
    · rename_i r nr1 ha
      simp only [Except.ok.injEq, Prod.mk.injEq] at k3
      obtain ⟨k31, k32, _⟩ := k3
      subst k32
      refine fresh new r _ hprep'.2.2 ha ?_
      intro g hg
      have hg0 := hg
      rw [hmem, ← k31, List.mem_append] at hg
      rcases hg with hg | hg
      · obtain ⟨f', hf', hgf⟩ := List.mem_map.1 hg
        have c1 := (applyFirstUpdated_cases ups f').1
        rw [hgf] at c1
        have hf := (List.mem_filter.1 hf').1
        exact Or.inl ⟨f', hf, carry hv hcl h1 he hp hres hov hf hg0 c1⟩
      · exact Or.inr hg
  | overwrite new sch up =>
    rw [hop] at k3
    unfold Prepared at hprep
    rw [hop] at hprep
    simp only [opArms] at k3
    split at k3
    · cases k3
    · rename_i r nr1 ha
      simp only [Except.ok.injEq, Prod.mk.injEq] at k3
      obtain ⟨k31, k32, _⟩ := k3
      subst k32
      refine fresh new r _ hprep ha ?_
      intro g hg
      rw [hmem, ← k31] at hg
      exact Or.inr hg
  | merge x y =>
    have hov : ∀ x y z, e.job.tx.op ≠ .overwrite x y z := by rw [hop]; intro x y z h; cases h
    have hchk := checked_ops hv hcl h1 he hp (by rw [hop]; intro x y z h; cases h)
      (by rw [hop]; intro x y z w h; cases h)
    rw [hop] at hchk k3
    simp only [opArms, Except.ok.injEq, Prod.mk.injEq] at k3
    have hsame := merge_stable hv (look_le hb).1 hst.rle (look_le hp).2 hchk hb hp
    unfold Prepared at hprep
    rw [hop] at hprep
    refine plain k3.2.1.symm hov ?_
    intro g hg
    rw [hmem, ← k3.1] at hg
    have : g.rows ∈ x.map Frag.rows := List.mem_map_of_mem hg
    rw [hprep, ← hsame] at this
    obtain ⟨f', hf', hr⟩ := List.mem_map.1 this
    exact mem_ids.2 ⟨f', hf', by have := congrArg Frag.id hr; exact this⟩
  | rewrite gs r =>
    have hov : ∀ x y z, e.job.tx.op ≠ .overwrite x y z := by rw [hop]; intro x y z h; cases h
    have hfo := freshOp_of hfr (by have := look_le he; omega) h1 he hp hprep
    have hperm := rewrite_built hbl (hok v p hp) hop hfo
    have hm : e.job.tx.op.Modifies := by rw [hop]; trivial
    have hchk := checked_ops hv hcl h1 he hp (by rw [hop]; intro x y z h; cases h)
      (by rw [hop]; intro x y z w h; cases h)
    rw [hop] at k3
    have hprep' := hprep
    unfold Prepared at hprep'
    rw [hop] at hprep'
    obtain ⟨q1, q2, q3, q4, q5, q6, q7, q8, q9⟩ := hprep'
    have hnr : nr' = nr := by
      simp only [opArms, Option.map_some] at k3
      split at k3
      · cases k3
      · cases nr with
        | none =>
          simp only at k3
          split at k3
          · cases k3
          · simp only [Except.ok.injEq, Prod.mk.injEq] at k3; exact k3.2.1.symm
        | some k =>
          simp only at k3
          split at k3
          · cases k3
          · simp only [Except.ok.injEq, Prod.mk.injEq] at k3; exact k3.2.1.symm
    have hnx : e.m.nextRow = p.m.nextRow := by
      rw [k5, hnr]
      cases hn : nr with
      | none => rfl
      | some n => exact s1 n hn
    -- the row ids of the new fragments come from fragments of `p` that are removed
    have hsrc : ∀ i ∈ rowIdsOf (gs.flatMap (·.new)), ∃ f ∈ p.m.frags, f.id ∈ gs.flatMap (fun g => ids g.old) ∧ i ∈ f.rids := by
      intro i hi
      obtain ⟨f0, hf0, hif⟩ := mem_rowIdsOf.1 (q8 i hi)
      obtain ⟨g, hg, hfg⟩ := List.mem_flatMap.1 hf0
      have hmod : f0.id ∈ e.job.tx.op.modifiedIds := by
        rw [hop]; exact List.mem_flatMap.2 ⟨g, hg, List.mem_map_of_mem hfg⟩
      obtain ⟨f, hf, hfr'⟩ := named_stable hv hcl hm (look_le hb).1 hst.rle (look_le hp).2 hchk hb hp (q1 g hg f0 hfg) hmod
      have hid : f.id = f0.id := by have := congrArg Frag.id hfr'; exact this
      have hri : f.rowIds = f0.rowIds := by have := congrArg Frag.rowIds hfr'; exact this
      refine ⟨f, hf, List.mem_flatMap.2 ⟨g, hg, by rw [hid]; exact mem_ids_of hfg⟩, ?_⟩
      unfold Frag.rids at *
      rw [hri]; exact hif
    have hpart : ∀ g ∈ e.m.frags, (g ∈ p.m.frags ∧ g.id ∉ gs.flatMap (fun g => ids g.old)) ∨ g ∈ gs.flatMap (·.new) := by
      intro g hg
      rw [hperm.mem_iff, List.mem_append] at hg
      rcases hg with hg | hg
      · have := List.mem_filter.1 hg
        exact Or.inl ⟨this.1, by simpa using this.2⟩
      · exact Or.inr hg
    refine ⟨rinv_parts (N := gs.flatMap (·.new)) hem hrp q7 ?_ ?_ ?_ (by omega) ?_, by omega, ?_⟩
    · intro f hf
      obtain ⟨g, hg, hfg⟩ := List.mem_flatMap.1 hf
      exact q9 g hg f hfg
    · intro g hg
      rcases hpart g hg with h | h
      · exact Or.inl ⟨g, h.1, Frag.Later.refl _⟩
      · exact Or.inr h
    · intro g hg f hf hl i hi
      rcases hpart g hg with ⟨h3, h4⟩ | h
      · refine Or.inl (fun hif => ?_)
        have hgf : g = f := nodup_ids_eq hpm h3 hf hl.1
        subst hgf
        obtain ⟨f2, hf2, hin, hif2⟩ := hsrc i hi
        by_cases hne : f2 = g
        · subst hne; exact h4 hin
        · exact flatMap_disjoint (f := Frag.rids) hrp.nodup hf2 h3 hne hif2 hif
      · exact Or.inr h
    · intro i hi
      obtain ⟨f, hf, _, hif⟩ := hsrc i hi
      have := hrp.lt i (mem_rowIdsOf.2 ⟨f, hf, hif⟩)
      omega
    · intro i hi
      obtain ⟨g, hg, hig⟩ := mem_rowIdsOf.1 hi
      rcases hpart g hg with h | h
      · exact Or.inl (mem_rowIdsOf.2 ⟨g, h.1, hig⟩)
      · obtain ⟨f, hf, _, hif⟩ := hsrc i (mem_rowIdsOf.2 ⟨g, h, hig⟩)
        exact Or.inl (mem_rowIdsOf.2 ⟨f, hf, hif⟩)
  | _ =>
    have hov : ∀ x y z, e.job.tx.op ≠ .overwrite x y z := by rw [hop]; intro x y z h; cases h
    have hia := ids_after hbl (hok v p hp) hov (by rw [hop]; intro x y h; cases h) hnewids
    refine plain ?_ hov ?_
    · rw [hop] at k3
      simp only [opArms, Option.map_some] at k3
      repeat' split at k3
      all_goals first | (cases k3; done) | (simp only [Except.ok.injEq, Prod.mk.injEq] at k3; exact k3.2.1.symm)
    · intro g hg
      rcases hia.2 g.id (mem_ids_of hg) with h | h
      · exact h
      · rw [hop] at h; exact h.elim

theorem rinv_first {H : Hist} (hv : Valid H) {e : Entry} (he : H.look 1 = some e) (hok : MOk e.m) : RInv e.m := by
  obtain ⟨⟨new, sch, up, hop, hnew⟩, _, _, hatt⟩ := valid_first hv he
  have hbl := attemptNew_build hatt
  obtain ⟨schema, nr, fs, nr', k1, k2, k3, k4, k5, k6⟩ := hbl.arms
  rw [hop] at k3
  simp only [opArms] at k3
  split at k3
  · cases k3
  · rename_i r nr1 ha
    simp only [Except.ok.injEq, Prod.mk.injEq] at k3
    obtain ⟨k31, k32, _⟩ := k3
    subst k32
    subst k31
    obtain ⟨a1, a2, a3, a4, a5, a6, a7⟩ := assigned (base := 0) hnew ha (by
      intro n hn
      unfold startRowId at k2
      simp only [Except.ok.injEq] at k2
      rw [hn] at k2
      split at k2
      · exact (Option.some.inj k2).symm
      · cases k2)
    have hmem : ∀ g, g ∈ e.m.frags ↔ g ∈ r := by intro g; rw [k4, mem_sortBy]
    simp only [Option.map_none, Option.getD_none] at k5
    have hmi : ∀ i, i ∈ rowIdsOf e.m.frags ↔ i ∈ rowIdsOf r := by
      intro i; simp only [mem_rowIdsOf, hmem]
    refine ⟨?_, ?_, fun f hf => a2 f ((hmem f).1 hf)⟩
    · have hp : (rowIdsOf e.m.frags).Perm (rowIdsOf r) := by
        rw [k4]; exact (sortBy_perm _ _).flatMap_right _
      rw [hp.nodup_iff]; exact a1
    · intro i hi
      rw [k5]
      exact (a4 i ((hmi i).1 hi)).2

theorem rinv_all {H : Hist} (hv : Valid H) (hcl : H.Clean) {v : Nat} {e : Entry} (he : H.look v = some e) : RInv e.m := by
  induction v using Nat.strongRecOn generalizing e with
  | ind v ih =>
    have hle := look_le he
    by_cases h1 : v = 1
    · subst h1
      exact rinv_first hv he ((all_ok hv hcl).1 _ _ he)
    · obtain ⟨p, hp⟩ := look_exists (h := H) (v := v - 1) (by omega) (by omega)
      have he' : H.look (v - 1 + 1) = some e := by rw [Nat.sub_add_cancel (by omega)]; exact he
      by_cases hres : ∃ w, e.job.tx.op = .restore w
      · obtain ⟨w, hop⟩ := hres
        obtain ⟨rd, hatt, hrd⟩ := (valid_step hv (by omega) he' hp).att
        obtain ⟨m0, hl, h2, h3, _⟩ := attempt_restore hop hatt
        obtain ⟨hw, e0, h4, h5⟩ := hrd w _ hl
        simp only [Prod.mk.injEq] at h5
        have := ih w (by omega) h4
        rw [← h5.1] at this
        exact ⟨by rw [h2]; exact this.nodup, by rw [h2, h3]; exact this.lt, by rw [h2]; exact this.len⟩
      · exact (rinv_step hv hcl (by omega) he' hp (fun w h => hres ⟨w, h⟩) (ih (v - 1) (by omega) hp)).1

end Verif.Txn
