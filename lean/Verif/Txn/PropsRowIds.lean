import Verif.Txn.RowIdsInv
import Verif.Txn.Play
/-!
# C16: stable row ids are assigned once
-/
namespace Verif.Txn

/-- Full claim.  (1) row ids are distinct within a version; (2) a dataset with stable row ids keeps them:
every fragment of every later version has one row id per row; (3) a row id that appears in a version and
was not in the previous one was in no earlier version. -/
def C16_statement : Prop :=
  ∀ s, Reach s →
    (∀ v e, s.hist.look v = some e → (rowIdsOf e.m.frags).Nodup) ∧
    (∀ a b ea eb, a ≤ b → s.hist.look a = some ea → s.hist.look b = some eb → ea.m.usesStable = true →
      ∀ f ∈ eb.m.frags, ∃ l, f.rowIds = some l ∧ f.phys = some l.length) ∧
    (∀ a v ea e p, a ≤ v → s.hist.look a = some ea → s.hist.look v = some p → s.hist.look (v + 1) = some e →
      ∀ i ∈ rowIdsOf e.m.frags, i ∉ rowIdsOf p.m.frags → i ∉ rowIdsOf ea.m.frags)

theorem flags_stable {m : Manifest} {st : Bool} (h : m.rflags = flagsOf m.frags st) :
    m.usesStable = (m.frags.any (fun f => f.rowIds.isSome) || st) := by
  unfold Manifest.usesStable
  rw [h]
  unfold flagsOf
  cases m.frags.any (fun f => f.del.isSome) <;> cases m.frags.any (fun f => f.rowIds.isSome) <;> cases st <;> decide

/-- What `apply_feature_flags` checked for the version. -/
theorem stable_all {H : Hist} (hv : Valid H) {v : Nat} {e : Entry} (he : H.look v = some e) :
    (e.m.usesStable = true → ∀ f ∈ e.m.frags, f.rowIds.isSome = true) ∧
      (e.m.usesStable = (e.m.frags.any (fun f => f.rowIds.isSome) || e.job.tx.stable)) := by
  have hle := look_le he
  by_cases h1 : v = 1
  · subst h1
    obtain ⟨_, _, _, hatt⟩ := valid_first hv he
    have hbl := attemptNew_build hatt
    have := flags_stable hbl.rfl'
    exact ⟨fun h => hbl.all (by rw [← this]; exact h), this⟩
  · obtain ⟨p, hp⟩ := look_exists (h := H) (v := v - 1) (by omega) (by omega)
    have he' : H.look (v - 1 + 1) = some e := by rw [Nat.sub_add_cancel (by omega)]; exact he
    obtain ⟨rd, hatt, hrd⟩ := (valid_step hv (by omega) he' hp).att
    by_cases hres : ∃ w, e.job.tx.op = .restore w
    · obtain ⟨w, hop⟩ := hres
      obtain ⟨m0, hl, h2, _, _, _, _, _, h3, _, h4, _⟩ := attempt_restore hop hatt
      have := flags_stable (m := e.m) (by rw [h3, h2])
      exact ⟨fun h => h4 (by rw [← this]; exact h), this⟩
    · have hbl : Built (some p.m) p.ix _ _ _ := (attempt_build (fun w h => hres ⟨w, h⟩) hatt).1
      have := flags_stable hbl.rfl'
      exact ⟨fun h => hbl.all (by rw [← this]; exact h), this⟩

/-- Row ids are distinct within a version and below the next row id. -/
theorem C16_distinct_partial {s : Sys} (hr : Reach s) (hc : s.hist.Clean) {v : Nat} {e : Entry}
    (he : s.hist.look v = some e) : (rowIdsOf e.m.frags).Nodup ∧ ∀ i ∈ rowIdsOf e.m.frags, i < e.m.nextRow :=
  ⟨(rinv_all (valid_of_reach hr) hc he).nodup, (rinv_all (valid_of_reach hr) hc he).lt⟩

/-- In a version whose manifest says it has stable row ids every fragment has one id per row. -/
theorem C16_every_row_partial {s : Sys} (hr : Reach s) (hc : s.hist.Clean) {v : Nat} {e : Entry}
    (he : s.hist.look v = some e) (hst : e.m.usesStable = true) :
    ∀ f ∈ e.m.frags, ∃ l, f.rowIds = some l ∧ f.phys = some l.length := by
  intro f hf
  obtain ⟨l, hl⟩ := Option.isSome_iff_exists.1 ((stable_all (valid_of_reach hr) he).1 hst f hf)
  exact ⟨l, hl, (rinv_all (valid_of_reach hr) hc he).len f hf l hl⟩

/-- Without a restore in between, a row id that appears in a version was in no earlier version. -/
theorem C16_never_reused_partial {s : Sys} (hr : Reach s) (hc : s.hist.Clean) {a v : Nat} {ea e p : Entry}
    (hav : a ≤ v) (hea : s.hist.look a = some ea) (hp : s.hist.look v = some p) (he : s.hist.look (v + 1) = some e)
    (hno : ∀ u x, a < u → u ≤ v + 1 → s.hist.look u = some x → ∀ w, x.job.tx.op ≠ .restore w)
    {i : Nat} (hi : i ∈ rowIdsOf e.m.frags) (hni : i ∉ rowIdsOf p.m.frags) : i ∉ rowIdsOf ea.m.frags := by
  have hv := valid_of_reach hr
  have h1 := (look_le hea).1
  have mono : ∀ u x, a ≤ u → u ≤ v → s.hist.look u = some x → ea.m.nextRow ≤ x.m.nextRow := by
    intro u
    induction u with
    | zero => intro x h2; omega
    | succ u ih =>
      intro x h2 h3 h4
      by_cases hu : a = u + 1
      · subst hu; rw [hea] at h4; cases h4; exact Nat.le_refl _
      · obtain ⟨q, hq⟩ := look_exists (h := s.hist) (v := u) (by omega) (by have := look_le h4; omega)
        have := ih q (by omega) (by omega) hq
        have := (rinv_step hv hc (by omega) h4 hq (hno (u + 1) x (by omega) (by omega) h4) (rinv_all hv hc hq)).2.1
        omega
  have hm := mono v p hav (Nat.le_refl _) hp
  rcases (rinv_step hv hc (by omega) he hp (hno (v + 1) e (by omega) (Nat.le_refl _) he) (rinv_all hv hc hp)).2.2 i hi with h | h
  · exact absurd h hni
  · intro hmem
    have := (rinv_all hv hc hea).lt i hmem
    omega

/-- Stable row ids stay enabled by every commit other than a restore that leaves fragments. -/
theorem C16_stays_enabled_partial {s : Sys} (hr : Reach s) (hc : s.hist.Clean) {v : Nat} {e p : Entry}
    (hp : s.hist.look v = some p) (he : s.hist.look (v + 1) = some e)
    (hres : ∀ w, e.job.tx.op ≠ .restore w) (hst : p.m.usesStable = true)
    (hne : e.m.frags ≠ [] ∨ e.job.tx.stable = true) : e.m.usesStable = true := by
  have hv := valid_of_reach hr
  obtain ⟨hok, hfr⟩ := all_ok hv hc
  have h1 := (look_le hp).1
  have hsi := valid_step hv h1 he hp
  obtain ⟨rd, hatt, _⟩ := hsi.att
  obtain ⟨b, hb, hprep⟩ := hsi.prep
  have hbl : Built (some p.m) p.ix _ _ _ := (attempt_build hres hatt).1
  rw [(stable_all hv he).2]
  rcases hne with hne | hne
  · obtain ⟨g, hg⟩ := List.exists_mem_of_ne_nil _ hne
    suffices h : g.rowIds.isSome = true by
      rw [Bool.or_eq_true]; exact Or.inl (List.any_eq_true.2 ⟨g, hg, h⟩)
    by_cases hov : ∃ x y z, e.job.tx.op = .overwrite x y z
    · obtain ⟨new, sch, up, hop⟩ := hov
      obtain ⟨schema, nr, fs, nr', k1, k2, k3, k4, k5, k6⟩ := hbl.arms
      obtain ⟨s1, s2⟩ := startRowId_base k2
      unfold Prepared at hprep
      rw [hop] at hprep k3
      simp only [opArms] at k3
      split at k3
      · cases k3
      · rename_i r nr1 ha
        simp only [Except.ok.injEq, Prod.mk.injEq] at k3
        rw [k4, mem_sortBy, ← k3.1] at hg
        have := (assigned (base := p.m.nextRow) hprep ha s1).2.2.2.2.1 g hg
        rw [this, s2]; exact hst
    · have hov' : ∀ x y z, e.job.tx.op ≠ .overwrite x y z := fun x y z h => hov ⟨x, y, z, h⟩
      by_cases hold : g.id ∈ ids p.m.frags
      · obtain ⟨f, hf, hfi⟩ := mem_ids.1 hold
        have hl := carry hv hc h1 he hp hres hov' hf hg hfi.symm
        rw [hl.2.2.1]
        exact (stable_all hv hp).1 hst f hf
      · obtain ⟨schema, nr, fs, nr', k1, k2, k3, k4, k5, k6⟩ := hbl.arms
        obtain ⟨s1, s2⟩ := startRowId_base k2
        by_cases hmg : ∃ x y, e.job.tx.op = .merge x y
        · exfalso
          obtain ⟨x, y, hop⟩ := hmg
          have hchk := checked_ops hv hc h1 he hp (by rw [hop]; intro x y z h; cases h)
            (by rw [hop]; intro x y z w h; cases h)
          rw [hop] at hchk k3
          simp only [opArms, Except.ok.injEq, Prod.mk.injEq] at k3
          have hsame := merge_stable hv (look_le hb).1 hsi.rle (look_le hp).2 hchk hb hp
          unfold Prepared at hprep
          rw [hop] at hprep
          rw [k4, mem_sortBy, ← k3.1] at hg
          have : g.rows ∈ x.map Frag.rows := List.mem_map_of_mem hg
          rw [hprep, ← hsame] at this
          obtain ⟨f', hf', hr'⟩ := List.mem_map.1 this
          exact hold (mem_ids.2 ⟨f', hf', by have := congrArg Frag.id hr'; exact this⟩)
        · have hlt : v < s.hist.length := by have := look_le he; omega
          have hia := ids_after hbl (hok v p hp) hov' (fun x y h => hmg ⟨x, y, h⟩)
            (step_new_ids (c := p.m) hprep (fun gs r hop => hfr v e p hlt h1 he hp gs r hop))
          rcases hia.2 g.id (mem_ids_of hg) with h | h
          · exact absurd h hold
          · cases hop : e.job.tx.op with
            | append new =>
              unfold Prepared at hprep
              rw [hop] at hprep k3
              simp only [opArms, Option.map_some] at k3
              split at k3
              · cases k3
              · rename_i r nr1 ha
                simp only [Except.ok.injEq, Prod.mk.injEq] at k3
                rw [k4, mem_sortBy, ← k3.1, List.mem_append] at hg
                rcases hg with hg | hg
                · exact absurd (mem_ids_of hg) hold
                · rw [(assigned (base := p.m.nextRow) hprep ha s1).2.2.2.2.1 g hg, s2]; exact hst
            | update rem ups new =>
              unfold Prepared at hprep
              rw [hop] at hprep k3
              simp only [opArms, Option.map_some] at k3
              split at k3
              · cases k3
              · rename_i r nr1 ha
                simp only [Except.ok.injEq, Prod.mk.injEq] at k3
                rw [k4, mem_sortBy, ← k3.1, List.mem_append] at hg
                rcases hg with hg | hg
                · obtain ⟨f', hf', hgf⟩ := List.mem_map.1 hg
                  have c1 := (applyFirstUpdated_cases ups f').1
                  rw [hgf] at c1
                  exact absurd (mem_ids.2 ⟨f', (List.mem_filter.1 hf').1, c1.symm⟩) hold
                · rw [(assigned (base := p.m.nextRow) hprep.2.2 ha s1).2.2.2.2.1 g hg, s2]; exact hst
            | rewrite gs rew =>
              have hm : e.job.tx.op.Modifies := by rw [hop]; trivial
              have hchk := checked_ops hv hc h1 he hp (by rw [hop]; intro x y z h; cases h)
                (by rw [hop]; intro x y z w h; cases h)
              have hperm := rewrite_built hbl (hok v p hp) hop (freshOp_of hfr hlt h1 he hp hprep)
              rw [hperm.mem_iff, List.mem_append] at hg
              rcases hg with hg | hg
              · exact absurd (mem_ids_of (List.mem_filter.1 hg).1) hold
              · obtain ⟨g0, hg0, hgn⟩ := List.mem_flatMap.1 hg
                unfold Prepared at hprep
                rw [hop] at hprep k3
                obtain ⟨q1, q2, q3, q4, q5, q6, q7, q8, q9⟩ := hprep
                rw [q6 g0 hg0 g hgn]
                -- the group has an old fragment, which is in both versions
                have hne0 : g0.old ≠ [] := by
                  intro hnil
                  simp only [opArms, Option.map_some] at k3
                  split at k3
                  · cases k3
                  · rename_i fr n1 ha
                    have key : ∀ (gs : List Group) (frags : List Frag) (n : Nat) (o : List Frag × Nat), g0 ∈ gs →
                        rewriteFrags gs frags n ≠ .ok o := by
                      intro gs
                      induction gs with
                      | nil => intro frags n o h; cases h
                      | cons g1 gs ih =>
                        intro frags n o h hok'
                        unfold rewriteFrags at hok'
                        split at hok'
                        · cases hok'
                        · rename_i fs1 n1 hg1
                          rcases List.mem_cons.1 h with e1 | h
                          · rw [← e1] at hg1
                            unfold rewriteGroup at hg1
                            rw [hnil] at hg1
                            cases hg1
                          · exact ih fs1 n1 o h hok'
                    exact key gs _ _ _ hg0 ha
                obtain ⟨o, ho⟩ := List.exists_mem_of_ne_nil _ hne0
                have hmod : o.id ∈ e.job.tx.op.modifiedIds := by
                  rw [hop]; exact List.mem_flatMap.2 ⟨g0, hg0, List.mem_map_of_mem ho⟩
                obtain ⟨f, hf, hfr'⟩ := named_stable hv hc hm (look_le hb).1 hsi.rle (look_le hp).2 hchk hb hp (q1 g0 hg0 o ho) hmod
                have hri : f.rowIds = o.rowIds := by have := congrArg Frag.rowIds hfr'; exact this
                have hfs := (stable_all hv hp).1 hst f hf
                rw [(stable_all hv hb).2, Bool.or_eq_true]
                exact Or.inl (List.any_eq_true.2 ⟨o, q1 g0 hg0 o ho, by rw [← hri]; exact hfs⟩)
            | _ => rw [hop] at h; exact h.elim
  · rw [hne]; simp

/-! ## Examples and counterexamples -/

/-- Stable row ids: create with 3 rows, append 2 rows, compact both fragments (with the row ids kept). -/
def x16 : Option Hist :=
  play false (xcreate [xnew 1 3] true)
    [xtx 1 101 (.append [xnew 2 2]) true,
     xtx 2 102 (.reserve 1) true,
     xtx 2 103 (.rewrite [⟨[⟨0, [xf 1], none, some [0, 1, 2], some 3⟩, ⟨1, [xf 2], none, some [3, 4], some 2⟩],
        [⟨2, [xf 9], none, some [0, 1, 2, 3, 4], some 5⟩]⟩] []) true [3],
     xtx 4 104 (.append [xnew 3 1])]

example : x16.map (fun h => h.map (fun e => (rowIdsOf e.m.frags, e.m.nextRow, e.m.usesStable))) =
    some [([0, 1, 2, 3, 4, 5], 6, true), ([0, 1, 2, 3, 4], 5, true), ([0, 1, 2, 3, 4], 5, true),
      ([0, 1, 2, 3, 4], 5, true), ([0, 1, 2], 3, true)] := by decide +kernel

/-- After restoring version 1, appended rows get row ids that rows of version 2 had. -/
theorem C16_restore_violated : ¬ C16_statement := by
  intro hst
  obtain ⟨s, k, h1, _, _, ⟨e, he, q1⟩, ⟨a, ha, r1⟩, b, hb, u1⟩ := play_ex (cached := false) (j := xcreate [xnew 1 3] true)
    (js := [xtx 1 101 (.append [xnew 2 4]) true, xtx 2 102 (.restore 1) true, xtx 3 103 (.append [xnew 3 5]) true])
    (fun h => h.At 4 (fun e => 3 ∈ rowIdsOf e.m.frags) ∧ h.At 2 (fun e => 3 ∈ rowIdsOf e.m.frags) ∧
      h.At 3 (fun e => 3 ∉ rowIdsOf e.m.frags)) (by decide +kernel)
  exact (hst s h1).2.2 2 3 a e b (by decide) ha hb he 3 q1 u1 r1

/-- `Dataset::delete` commits without asking for stable row ids.  When it removes the last fragment the
flag is lost, and rows appended later get no row id. -/
theorem C16_delete_all_violated : ¬ C16_statement := by
  intro hst
  obtain ⟨s, k, h1, _, _, ⟨e, he, f, hf, q1⟩, a, ha, r1⟩ := play_ex (cached := false) (j := xcreate [xnew 1 3] true)
    (js := [xtx 1 101 (.delete [] [0] 0), xtx 2 102 (.append [xnew 2 4])])
    (fun h => h.At 3 (fun e => ∃ f ∈ e.m.frags, f.rowIds = none) ∧ h.At 1 (fun e => e.m.usesStable = true)) (by decide +kernel)
  obtain ⟨l, hl, _⟩ := (hst s h1).2.1 1 3 a e (by decide) ha he r1 f hf
  rw [q1] at hl; cases hl

end Verif.Txn
