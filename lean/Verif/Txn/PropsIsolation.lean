import Verif.Txn.Lineage
import Verif.Txn.Play
/-!
# C17: concurrent commits do not lose updates
-/
namespace Verif.Txn

/-- The operation rewrites, removes or adds deletions to the fragment with this id. -/
inductive Touches : Op → Nat → Prop
  | delUpdated {ups del p u} : u ∈ ups → Touches (.delete ups del p) u.id
  | delRemoved {ups del p i} : i ∈ del → Touches (.delete ups del p) i
  | updUpdated {rem ups new u} : u ∈ ups → Touches (.update rem ups new) u.id
  | updRemoved {rem ups new i} : i ∈ rem → Touches (.update rem ups new) i
  | compacted {gs r g f} : g ∈ gs → f ∈ g.old → Touches (.rewrite gs r) f.id
  | merged {fs s f} : f ∈ fs → Touches (.merge fs s) f.id
  | replaced {rs r} : r ∈ rs → Touches (.dataReplacement rs) r.1

/-- Same rows: same id, number of rows, row ids and deletions (the data files may differ). -/
def SameRows (f g : Frag) : Prop := g.id = f.id ∧ g.phys = f.phys ∧ g.rowIds = f.rowIds ∧ g.del = f.del

/-- Full claim: every fragment a committed transaction touches is, in the version it is committed on, as
it was in the version the transaction read. -/
def C17_statement : Prop :=
  ∀ s, Reach s → ∀ t e b p, s.hist.look (t + 1) = some e → s.hist.look e.job.tx.read = some b →
    s.hist.look t = some p → ∀ f ∈ b.m.frags, Touches e.job.tx.op f.id → ∃ g ∈ p.m.frags, SameRows f g

theorem sameRows_of {f g : Frag} (h : g.rows = f.rows) : SameRows f g :=
  ⟨by have := congrArg Frag.id h; exact this, by have := congrArg Frag.phys h; exact this,
   by have := congrArg Frag.rowIds h; exact this, by have := congrArg Frag.del h; exact this⟩

theorem touches_modified {op : Op} {i : Nat} (h : Touches op i) : i ∈ op.modifiedIds := by
  cases h with
  | delUpdated h => exact List.mem_append_left _ (List.mem_map_of_mem h)
  | delRemoved h => exact List.mem_append_right _ h
  | updUpdated h => exact List.mem_append_left _ (List.mem_map_of_mem h)
  | updRemoved h => exact List.mem_append_right _ h
  | compacted h1 h2 => exact List.mem_flatMap.2 ⟨_, h1, List.mem_map_of_mem h2⟩
  | merged h => exact List.mem_map_of_mem h
  | replaced h => exact List.mem_map_of_mem h

theorem modified_touches {op : Op} {i : Nat} (h : i ∈ op.modifiedIds) : Touches op i := by
  cases op with
  | delete ups del p =>
    rcases List.mem_append.1 h with h | h
    · obtain ⟨u, hu, rfl⟩ := List.mem_map.1 h; exact .delUpdated hu
    · exact .delRemoved h
  | update rem ups new =>
    rcases List.mem_append.1 h with h | h
    · obtain ⟨u, hu, rfl⟩ := List.mem_map.1 h; exact .updUpdated hu
    · exact .updRemoved h
  | rewrite gs r =>
    obtain ⟨g, hg, hf⟩ := List.mem_flatMap.1 h
    obtain ⟨f, hf', rfl⟩ := List.mem_map.1 hf
    exact .compacted hg hf'
  | merge fs s => obtain ⟨u, hu, rfl⟩ := List.mem_map.1 h; exact .merged hu
  | dataReplacement rs => obtain ⟨u, hu, rfl⟩ := List.mem_map.1 h; exact .replaced hu
  | _ => simp [Op.modifiedIds] at h

/-- Deletes, updates, compactions and merges: if no cleanup removed a version between the one read and
the one committed, every touched fragment is unchanged in between.  (Missing: data replacement, which
does not check against deletes and updates.) -/
theorem C17_snapshot_partial {s : Sys} (hr : Reach s) (hc : s.hist.Clean) {t : Nat} {e b p : Entry}
    (he : s.hist.look (t + 1) = some e) (hb : s.hist.look e.job.tx.read = some b) (hp : s.hist.look t = some p)
    (hnd : ∀ rs, e.job.tx.op ≠ .dataReplacement rs)
    {f : Frag} (hf : f ∈ b.m.frags) (ht : Touches e.job.tx.op f.id) : ∃ g ∈ p.m.frags, SameRows f g := by
  have hv := valid_of_reach hr
  have h1 := (look_le hp).1
  have hst := valid_step hv h1 he hp
  have hmod := touches_modified ht
  by_cases hmg : ∃ x y, e.job.tx.op = .merge x y
  · obtain ⟨x, y, hop⟩ := hmg
    have hchk := checked_ops hv hc h1 he hp (by rw [hop]; intro x y z h; cases h)
      (by rw [hop]; intro x y z w h; cases h)
    rw [hop] at hchk
    have hsame := merge_stable hv (look_le hb).1 hst.rle (look_le hp).2 hchk hb hp
    exact ⟨f, by rw [hsame]; exact hf, rfl, rfl, rfl, rfl⟩
  · have hm : e.job.tx.op.Modifies := by
      cases hop : e.job.tx.op with
      | dataReplacement rs => exact absurd hop (hnd rs)
      | merge x y => exact absurd ⟨x, y, hop⟩ hmg
      | delete _ _ _ => trivial
      | update _ _ _ => trivial
      | rewrite _ _ => trivial
      | _ => rw [hop] at ht; cases ht
    have hchk := checked_ops hv hc h1 he hp (by intro x y z h; rw [h] at hm; exact hm)
      (by intro x y z w h; rw [h] at hm; exact hm)
    obtain ⟨g, hg, hgr⟩ := named_stable hv hc hm (look_le hb).1 hst.rle (look_le hp).2 hchk hb hp hf hmod
    exact ⟨g, hg, sameRows_of hgr⟩

/-- Two deletes, updates or compactions touching the same fragment: the later one read a version that
includes the earlier one. -/
theorem C17_one_sees_the_other_partial {s : Sys} (hr : Reach s) (hc : s.hist.Clean) {t1 t2 : Nat} {e1 e2 : Entry}
    (h1 : s.hist.look t1 = some e1) (h2 : s.hist.look t2 = some e2) (hlt : t1 < t2)
    (hn1 : ∀ rs, e1.job.tx.op ≠ .dataReplacement rs) (hn2 : ∀ rs, e2.job.tx.op ≠ .dataReplacement rs)
    {i : Nat} (hi1 : Touches e1.job.tx.op i) (hi2 : Touches e2.job.tx.op i) : t1 ≤ e2.job.tx.read := by
  have hv := valid_of_reach hr
  rcases Nat.lt_or_ge e2.job.tx.read t1 with hlt' | hge
  · exfalso
    obtain ⟨t, rfl⟩ : ∃ t, t2 = t + 1 := ⟨t2 - 1, by omega⟩
    have := look_le h1
    have hlen := (look_le h2).2
    obtain ⟨p, hp⟩ := look_exists (h := s.hist) (v := t) (by omega) (by omega)
    have hchk := checked_ops hv hc (by omega) h2 hp (by intro x y z h; rw [h] at hi2; cases hi2)
      (by intro x y z w h; rw [h] at hi2; cases hi2) t1 e1 hlt' (by omega) h1
    have hm2 := touches_modified hi2
    have hm1 := touches_modified hi1
    by_cases hmg : ∃ x y, e2.job.tx.op = .merge x y
    · obtain ⟨x, y, hop⟩ := hmg
      rw [hop] at hchk
      rcases merge_compatible hchk with ⟨a, b, h⟩ | ⟨n, h⟩ | ⟨a, b, c, d, h⟩ <;> rw [h] at hi1 <;> cases hi1
    · have hm : e2.job.tx.op.Modifies := by
        cases hop : e2.job.tx.op with
        | dataReplacement rs => exact absurd hop (hn2 rs)
        | merge x y => exact absurd ⟨x, y, hop⟩ hmg
        | delete _ _ _ => trivial
        | update _ _ _ => trivial
        | rewrite _ _ => trivial
        | _ => rw [hop] at hi2; cases hi2
      exact (modifies_compatible hm hchk).2.2.2.2 i hm2 hm1
  · exact hge

/-- Fragments a commit does not touch are in the new version unchanged (dropping columns removes data
files; everything else stays). -/
theorem C17_untouched_partial {s : Sys} (hr : Reach s) (hc : s.hist.Clean) {t : Nat} {e p : Entry}
    (he : s.hist.look (t + 1) = some e) (hp : s.hist.look t = some p)
    (hres : ∀ w, e.job.tx.op ≠ .restore w) (hover : ∀ x y z, e.job.tx.op ≠ .overwrite x y z)
    {f : Frag} (hf : f ∈ p.m.frags) (ht : ¬ Touches e.job.tx.op f.id) :
    ∃ g ∈ e.m.frags, SameRows f g ∧ ((∀ s, e.job.tx.op ≠ .project s) → g = f) := by
  have hv := valid_of_reach hr
  obtain ⟨hok, hfr⟩ := all_ok hv hc
  have h1 := (look_le hp).1
  have hst := valid_step hv h1 he hp
  obtain ⟨rd, hatt, _⟩ := hst.att
  obtain ⟨b, hb, hprep⟩ := hst.prep
  have hbl : Built (some p.m) p.ix _ _ _ := (attempt_build hres hatt).1
  have hmod : f.id ∉ e.job.tx.op.modifiedIds := fun h => ht (modified_touches h)
  by_cases hmg : ∃ x y, e.job.tx.op = .merge x y
  · exfalso
    obtain ⟨x, y, hop⟩ := hmg
    have hchk := checked_ops hv hc h1 he hp (by rw [hop]; intro x y z h; cases h)
      (by rw [hop]; intro x y z w h; cases h)
    rw [hop] at hchk
    have hsame := merge_stable hv (look_le hb).1 hst.rle (look_le hp).2 hchk hb hp
    unfold Prepared at hprep
    rw [hop] at hprep
    have : f.rows ∈ x.map Frag.rows := by rw [hprep, ← hsame]; exact List.mem_map_of_mem hf
    obtain ⟨f', hf', hr'⟩ := List.mem_map.1 this
    have hid' : f'.id = f.id := by have := congrArg Frag.id hr'; exact this
    rw [hop] at ht
    exact ht (hid' ▸ Touches.merged hf')
  · obtain ⟨g, hg, hgr, hgp⟩ := stays hbl (hok t p hp) (freshOp_of hfr (by have := look_le he; omega) h1 he hp hprep) hover
      (fun x y h => hmg ⟨x, y, h⟩) hf hmod
    exact ⟨g, hg, sameRows_of hgr, hgp⟩

/-- A committed delete has its intended effect: the removed fragments are gone, and each fragment it
gave a deletion file is in the new version with that deletion file. -/
theorem C17_delete_effect_partial {s : Sys} (hr : Reach s) (hc : s.hist.Clean) {t : Nat} {e : Entry}
    (he : s.hist.look (t + 1) = some e) {ups : List Frag} {del : List Nat} {pr : Nat}
    (hop : e.job.tx.op = .delete ups del pr) (hnd : (ups.map (·.id)).Nodup) :
    (∀ i ∈ del, i ∉ e.m.frags.map (·.id)) ∧ ∀ u ∈ ups, u.id ∉ del → u ∈ e.m.frags := by
  have hv := valid_of_reach hr
  obtain ⟨hok, hfr⟩ := all_ok hv hc
  have h1 : 1 ≤ t := by
    rcases Nat.eq_zero_or_pos t with h | h
    · subst h
      obtain ⟨⟨fs, sch, up, ho, _⟩, _⟩ := valid_first hv he
      rw [hop] at ho; cases ho
    · exact h
  obtain ⟨p, hp⟩ := look_exists (h := s.hist) (v := t) h1 (by have := (look_le he).2; omega)
  have hst := valid_step hv h1 he hp
  obtain ⟨rd, hatt, _⟩ := hst.att
  obtain ⟨b, hb, hprep⟩ := hst.prep
  have hbl : Built (some p.m) p.ix _ _ _ := (attempt_build (by intro w; rw [hop]; intro h; cases h) hatt).1
  obtain ⟨schema, nr, fs, nr', k1, k2, k3, k4, k5, k6⟩ := hbl.arms
  rw [hop] at k3
  simp only [opArms, Option.map_some, Except.ok.injEq, Prod.mk.injEq] at k3
  rw [← k3.1] at k4
  have hmem : ∀ g, g ∈ e.m.frags ↔ ∃ f ∈ p.m.frags, f.id ∉ del ∧ applyUpdated ups f = g := by
    intro g
    rw [k4, mem_sortBy, List.mem_map]
    constructor
    · rintro ⟨f, hf, hfg⟩
      have := List.mem_filter.1 hf
      exact ⟨f, this.1, by simpa using this.2, hfg⟩
    · rintro ⟨f, hf, hd, hfg⟩
      exact ⟨f, List.mem_filter.2 ⟨hf, by simpa using hd⟩, hfg⟩
  refine ⟨?_, ?_⟩
  · intro i hi hm
    obtain ⟨g, hg, hgi⟩ := List.mem_map.1 hm
    obtain ⟨f, hf, hd, hfg⟩ := (hmem g).1 hg
    have := (applyUpdated_cases ups f).1
    rw [hfg] at this
    exact hd (by rw [← this, hgi]; exact hi)
  · intro u hu hud
    have hp' := hprep
    unfold Prepared at hp'
    rw [hop] at hp'
    obtain ⟨f0, hf0, a1, _⟩ := hp'.1 u hu
    obtain ⟨f, hf, hff⟩ := C17_snapshot_partial hr hc he hb hp (by rw [hop]; intro rs h; cases h) hf0
      (by rw [hop, ← a1]; exact Touches.delUpdated hu)
    have hfu : f.id = u.id := by rw [hff.1, a1]
    refine (hmem u).2 ⟨f, hf, by rw [hfu]; exact hud, ?_⟩
    rcases (applyUpdated_cases ups f).2.1 with h | h
    · -- the fold never leaves `f` alone when some update matches
      have key : ∀ (l : List Frag) (f : Frag), (l.map (·.id)).Nodup → u ∈ l → f.id = u.id → applyUpdated l f = u := by
        intro l
        induction l with
        | nil => intro f _ h; cases h
        | cons x l ih =>
          intro f hn hx hid
          have hstep : applyUpdated (x :: l) f = applyUpdated l (if x.id = f.id then x else f) := rfl
          rw [List.map_cons, List.nodup_cons] at hn
          rw [hstep]
          rcases List.mem_cons.1 hx with e1 | hx
          · subst e1
            rw [if_pos hid.symm]
            exact (applyUpdated_cases l u).2.2 hn.1
          · have hne : x.id ≠ f.id := by
              intro h
              exact hn.1 (List.mem_map.2 ⟨u, hx, by rw [h, hid]⟩)
            rw [if_neg hne]
            exact ih f hn.2 hx hid
      exact key ups f hnd hu hfu
    · have hid := (applyUpdated_cases ups f).1
      exact nodup_ids_eq hnd h hu (hid.trans hfu)

/-! ## Success means the version is there -/

/-- Full claim: a commit reported as version `v` is version `v`. -/
def C17_reported_statement : Prop :=
  ∀ s, Reach s → ∀ w j v, s.ws w = .done j v → ∃ e, s.hist.look v = some e ∧ e.job = j

theorem step_gone {s t : Sys} (h : Step s t) (hg : t.gone = []) : s.gone = [] := by
  cases h <;> first | exact hg | cases hg

/-- As long as nothing has been cleaned up, a commit reported as version `v` is version `v`. -/
theorem C17_reported_partial {s : Sys} (hr : Reach s) (hg : s.gone = []) {w : Nat} {j : Job} {v : Nat}
    (hd : s.ws w = .done j v) : ∃ e, s.hist.look v = some e ∧ e.job = j := by
  induction hr generalizing w j v with
  | init => cases hd
  | step hr hs ih =>
    have hg' := step_gone hs hg
    cases hs with
    | create w' j' m ix hw h0 fs sch up hop hrs hread hprep hatt =>
      simp only [Sys.set] at hd
      split at hd
      · cases hd
        exact ⟨_, rfl, rfl⟩
      · obtain ⟨e, he, _⟩ := ih hg' hd
        rw [h0] at he; cases he
    | begin w' j' e hw hread hav hex hprep =>
      simp only [Sys.set] at hd ⊢
      split at hd
      · cases hd
      · exact ih hg' hd
    | check w' j' order cached hw hord hok =>
      simp only [Sys.set] at hd ⊢
      split at hd
      · cases hd
      · exact ih hg' hd
    | commit w' j' p h m ix hw hh hnw hatt =>
      simp only [Sys.set] at hd ⊢
      split at hd
      · cases hd
        exact ⟨_, look_top _ _, rfl⟩
      · obtain ⟨e, he, hj⟩ := ih hg' hd
        exact ⟨e, look_cons_some _ he, hj⟩
    | lose w' j' base hw hb hgn =>
      simp only [Sys.set] at hd ⊢
      split at hd
      · cases hd
      · exact ih hg' hd
    | late w' j' base hw hb hgn => rw [hg'] at hgn; cases hgn
    | recheck w' j' target cached hw hok =>
      simp only [Sys.set] at hd ⊢
      split at hd
      · cases hd
      · exact ih hg' hd
    | cleanup v' hv' => cases hg
    | stop w' =>
      simp only [Sys.set] at hd ⊢
      split at hd
      · cases hd
      · exact ih hg' hd

/-! ## Examples and counterexamples -/

/-- Two deletes in different fragments, both prepared from version 2: both commit (versions 3 and 4) and
the hypotheses of the theorems above hold with non-trivial checks. -/
def x17 : Option Hist :=
  play false (xcreate [xnew 1 3])
    [xtx 1 101 (.append [xnew 2 4]),
     xtx 2 102 (.delete [⟨0, [xf 1], some ⟨2, 7, [1]⟩, none, some 3⟩] [] 0),
     xtx 2 103 (.delete [⟨1, [xf 2], some ⟨2, 8, [0, 3]⟩, none, some 4⟩] [] 0)]

example : x17.map (fun h => h.map (fun e => e.m.frags.map (fun f => (f.id, f.offs)))) =
    some [[(0, [1]), (1, [0, 3])], [(0, [1]), (1, [])], [(0, []), (1, [])], [(0, [])]] := by decide +kernel

/-- A delete of the same fragment prepared from the same version is refused. -/
example : play false (xcreate [xnew 1 3])
    [xtx 1 102 (.delete [⟨0, [xf 1], some ⟨1, 7, [1]⟩, none, some 3⟩] [] 0),
     xtx 1 103 (.delete [⟨0, [xf 1], some ⟨1, 8, [0]⟩, none, some 3⟩] [] 0)] = none := by decide +kernel

instance (f g : Frag) : Decidable (SameRows f g) := by unfold SameRows; infer_instance

/-- A data replacement commits over a delete in the same fragment that it has not seen. -/
theorem C17_replacement_violated : ¬ C17_statement := by
  intro hst
  obtain ⟨s, k, h1, _, _, ⟨e, he, q1, q2⟩, ⟨a, ha, r1⟩, b, hb, u1⟩ := play_ex (cached := false) (j := xcreate [xnew 1 3])
    (js := [xtx 1 102 (.delete [⟨0, [xf 1], some ⟨1, 7, [1]⟩, none, some 3⟩] [] 0),
      xtx 1 103 (.dataReplacement [(0, xf 9)])])
    (fun h => h.At 3 (fun e => e.job.tx.read = 1 ∧ e.job.tx.op = .dataReplacement [(0, xf 9)]) ∧
      h.At 1 (fun e => e.m.frags = [⟨0, [xf 1], none, none, some 3⟩]) ∧
      h.At 2 (fun e => e.m.frags = [⟨0, [xf 1], some ⟨1, 7, [1]⟩, none, some 3⟩])) (by decide +kernel)
  obtain ⟨g, hg, hs⟩ := hst s h1 2 e a b he (by rw [q1]; exact ha) hb
    ⟨0, [xf 1], none, none, some 3⟩ (by rw [r1]; exact List.mem_cons_self)
    (by rw [q2]; exact Touches.replaced (r := (0, xf 9)) List.mem_cons_self)
  rw [u1, List.mem_singleton] at hg
  rw [hg] at hs
  revert hs; decide

/-- The transaction of the writer in `C17_cleanup_violated`. -/
def xlate : Job := xtx 1 105 (.delete [⟨0, [xf 1], some ⟨1, 9, [1]⟩, none, some 3⟩] [] 0)

/-- What the next two theorems use: versions 1 (create), 2 (delete of row 0), 3 (append). -/
theorem xlate_base : ∃ s k, Reach s ∧ Quiet s k ∧ s.hist.Clean ∧
    (s.hist.length = 3 ∧
      s.hist.At 1 (fun e => e.m.frags = [⟨0, [xf 1], none, none, some 3⟩] ∧ Prepared s.hist e.m xlate) ∧
      s.hist.At 3 (fun e => e.m.frags = [⟨0, [xf 1], some ⟨1, 8, [0]⟩, none, some 3⟩, ⟨1, [xf 2], none, none, some 4⟩] ∧
        ∃ p ∈ s.hist.head?.toList, p = e ∧
          (match attempt (s.hist.read [2]) (e.m, e.ix) xlate.tx 4 with
            | .ok (m, _) => decide (m.frags = [⟨0, [xf 1], some ⟨1, 9, [1]⟩, none, some 3⟩,
                ⟨1, [xf 2], none, none, some 4⟩])
            | .error _ => false) = true)) :=
  play_ex (cached := false) (j := xcreate [xnew 1 3])
    (js := [xtx 1 102 (.delete [⟨0, [xf 1], some ⟨1, 8, [0]⟩, none, some 3⟩] [] 0),
      xtx 2 103 (.append [xnew 2 4])])
    (fun h => h.length = 3 ∧
      h.At 1 (fun e => e.m.frags = [⟨0, [xf 1], none, none, some 3⟩] ∧ Prepared h e.m xlate) ∧
      h.At 3 (fun e => e.m.frags = [⟨0, [xf 1], some ⟨1, 8, [0]⟩, none, some 3⟩, ⟨1, [xf 2], none, none, some 4⟩] ∧
        ∃ p ∈ h.head?.toList, p = e ∧
          (match attempt (h.read [2]) (e.m, e.ix) xlate.tx 4 with
            | .ok (m, _) => decide (m.frags = [⟨0, [xf 1], some ⟨1, 9, [1]⟩, none, some 3⟩,
                ⟨1, [xf 2], none, none, some 4⟩])
            | .error _ => false) = true)) (by decide +kernel)

/-- A writer reads version 1; version 2 deletes row 0 of the same fragment, version 3 appends; version 2
is cleaned up before the writer checks.  The check stops at the missing transaction and the writer
commits version 4, in which row 0 is back. -/
theorem C17_cleanup_violated : ¬ C17_statement := by
  intro hst
  obtain ⟨s, k, hr, hq, hcl, hlen, ⟨a, ha, ha1, ha2⟩, e, he, he1, p, hp, rfl, hatt⟩ := xlate_base
  have s1 : Step s (s.set k (.prepared xlate)) := Step.begin s k xlate a (hq.idle k (Nat.le_refl _)) ha
    (by rw [hq.gone]; simp) ⟨fun w j' hw v hv => (by cases hv), fun _ _ v hv => (by cases hv)⟩ ha2
  have s2 := Step.cleanup (s.set k (.prepared xlate)) 2 (by show 2 < s.hist.length; omega)
  let s' : Sys := { s.set k (.prepared xlate) with gone := 2 :: s.gone }
  have s3 : Step s' (s'.set k (.ready xlate 3)) := by
    have := Step.check s' k xlate [2, 3] (fun _ => false) (by simp [s', Sys.set]) (by
      have : versionsAfter xlate.tx.read s'.hist.length = [2, 3] := by
        show versionsAfter 1 s.hist.length = [2, 3]
        rw [hlen]; rfl
      rw [this]) (by
      intro v hv
      have : [2, 3].takeWhile (fun v => !s'.gone.contains v) = [] := by
        simp [s']
      rw [this] at hv; cases hv)
    have hl : s'.hist.length = 3 := hlen
    rw [hl] at this
    exact this
  have hl3 : s.hist = p :: s.hist.tail := by
    cases hh : s.hist with
    | nil => rw [hh] at hlen; cases hlen
    | cons x t => rw [hh] at hp; simp at hp; rw [hp]; rfl
  cases hat : attempt (s.hist.read [2]) (p.m, p.ix) xlate.tx 4 with
  | error x => rw [hat] at hatt; cases hatt
  | ok r =>
    obtain ⟨m, ix⟩ := r
    let s'' := s'.set k (.ready xlate 3)
    have hgone : s''.gone = [2] := by show 2 :: s.gone = [2]; rw [hq.gone]
    have hn : NoWrap p.m xlate.tx := trivial
    have hw : s''.ws k = .ready xlate s''.hist.length := by
      have : s''.hist.length = 3 := hlen
      rw [this]; simp [s'', Sys.set]
    have s4 := Step.commit s'' k xlate p s.hist.tail m ix hw hl3 hn (by
      have : s''.hist.length + 1 = 4 := by show s.hist.length + 1 = 4; omega
      rw [this, hgone]; exact hat)
    have hr4 := Reach.step (Reach.step (Reach.step (Reach.step hr s1) s2) s3) s4
    have hlook : ∀ v, v ≤ 3 → Hist.look (⟨xlate, m, ix, s''.gone⟩ :: s.hist) v = s.hist.look v := fun v hv =>
      look_cons_of_le _ (by omega)
    obtain ⟨g, hg, hs⟩ := hst _ hr4 3 ⟨xlate, m, ix, s''.gone⟩ a p
      (by show Hist.look (⟨xlate, m, ix, s''.gone⟩ :: s.hist) (3 + 1) = _
          rw [← hlen]; exact look_top _ _)
      (by show Hist.look (⟨xlate, m, ix, s''.gone⟩ :: s.hist) 1 = _
          rw [hlook 1 (by omega)]; exact ha)
      (by show Hist.look (⟨xlate, m, ix, s''.gone⟩ :: s.hist) 3 = _
          rw [hlook 3 (by omega)]; exact he)
      ⟨0, [xf 1], none, none, some 3⟩ (by rw [ha1]; exact List.mem_cons_self)
      (Touches.delUpdated (u := ⟨0, [xf 1], some ⟨1, 9, [1]⟩, none, some 3⟩) List.mem_cons_self)
    rw [he1] at hg
    rcases List.mem_cons.1 hg with h | hg
    · rw [h] at hs; revert hs; decide
    · rcases List.mem_cons.1 hg with h | hg
      · rw [h] at hs; revert hs; decide
      · cases hg

/-- A writer is ready to write version 2; two other commits happen and version 2 is cleaned up; the
writer's put of version 2 then succeeds although version 3 is the latest. -/
theorem C17_reported_violated : ¬ C17_reported_statement := by
  intro hst
  let js := [xtx 1 102 (.append [xnew 2 4]), xtx 2 103 (.append [xnew 3 4])]
  obtain ⟨s, k, hr, hq, hcl, hlen, ⟨a, ha, ha2⟩, hpl⟩ := play_ex (cached := false) (j := xcreate [xnew 1 3]) (js := [])
    (fun h => h.length = 1 ∧ h.At 1 (fun e => Prepared h e.m xlate) ∧
      ∃ h' ∈ (playFrom false h js).toList, h'.length = 3 ∧ h'.At 2 (fun e => e.job.tx.uuid = 102))
    (by decide +kernel)
  obtain ⟨h', hpl, hlen', e2, he2, hu2⟩ := hpl
  rw [Option.mem_toList] at hpl
  have s1 : Step s (s.set k (.prepared xlate)) := Step.begin s k xlate a (hq.idle k (Nat.le_refl _)) ha
    (by rw [hq.gone]; simp) ⟨fun w j' hw v hv => (by cases hv), fun _ _ v hv => (by cases hv)⟩ ha2
  have s2 := Step.check (s.set k (.prepared xlate)) k xlate [] (fun _ => false) (by simp [Sys.set]) (by
      have : versionsAfter xlate.tx.read (s.set k (.prepared xlate)).hist.length = [] := by
        show versionsAfter 1 s.hist.length = []
        rw [hlen]; rfl
      rw [this]) (by intro v hv; cases hv)
  have hr2 := Reach.step (Reach.step hr s1) s2
  have hl1 : (s.set k (.prepared xlate)).hist.length = 1 := hlen
  rw [hl1] at hr2
  obtain ⟨t, k', t1, t2, t3, t4, t5⟩ := playFrom_reach (k := k + 1) (js := js) hr2
    ⟨fun i hi => (by
        have hne : i ≠ k := by omega
        simp only [Sys.set, hne, if_false]
        exact hq.idle i (by omega)),
      fun i j hj => (by
        simp only [Sys.set] at hj
        split at hj
        · cases hj; rfl
        · exact hq.done i j hj), hq.gone⟩ hpl
  have hw : t.ws k = .ready xlate 1 := by rw [t5 k (by omega)]; simp [Sys.set]
  have s5 := Step.cleanup t 2 (by rw [t3, hlen']; decide)
  have s6 := Step.late { t with gone := 2 :: t.gone } k xlate 1 hw (by show 1 < t.hist.length; rw [t3, hlen']; decide)
    List.mem_cons_self
  obtain ⟨e, he, hj⟩ := hst _ (Reach.step (Reach.step t1 s5) s6) k xlate 2 (by simp [Sys.set])
  have : t.hist.look 2 = some e := he
  rw [t3, he2] at this
  cases this
  rw [hj] at hu2
  revert hu2; decide

end Verif.Txn
