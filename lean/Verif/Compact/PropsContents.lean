import Verif.Compact.Model
import Verif.Txn.PropsIsolation
/-!
# C53: compaction and the contents of the dataset

`cont val f` are the live rows of a fragment, in order; `val i o` stands for the row at offset `o` of fragment `i`
(rows do not change once written; ids are not reused, C15).
-/
namespace Verif.Compact
open Txn

/-- The live rows of a fragment in order. -/
def cont {α : Type} (val : Nat → Nat → α) (f : Frag) : List α :=
  ((List.range (f.phys.getD 0)).filter (fun o => !f.offs.contains o)).map (val f.id)

theorem cont_rows {α : Type} (val : Nat → Nat → α) {f g : Frag} (h : g.rows = f.rows) : cont val g = cont val f := by
  obtain ⟨h1, h2, _, h4⟩ := sameRows_of h
  simp only [cont, Frag.offs, h1, h2, h4]

/-- Each rewritten run holds the live rows of the fragments it replaces. -/
def Faithful {α : Type} (val : Nat → Nat → α) (gs : List Group) : Prop :=
  ∀ g ∈ gs, g.new.flatMap (cont val) = g.old.flatMap (cont val)

theorem flatMap_groups {α : Type} {val : Nat → Nat → α} : ∀ {gs : List Group}, Faithful val gs →
    (gs.flatMap (·.new)).flatMap (cont val) = (gs.flatMap (·.old)).flatMap (cont val)
  | [], _ => rfl
  | g :: gs, h => by
    simp only [List.flatMap_cons, List.flatMap_append]
    rw [h g (List.mem_cons_self ..), flatMap_groups (fun x hx => h x (List.mem_cons_of_mem _ hx))]

theorem flatMap_rows {α : Type} (val : Nat → Nat → α) (l : List Frag) :
    l.flatMap (cont val) = (l.map Frag.rows).flatMap (cont val) := by
  rw [List.flatMap_map]
  rfl

/-- What a committed compaction says about the version before it. -/
theorem rewrite_facts {s : Sys} (hr : Reach s) (hc : s.hist.Clean) {t : Nat} {e p : Entry}
    (he : s.hist.look (t + 1) = some e) (hp : s.hist.look t = some p) {gs : List Group} {r : List (Nat × Nat)}
    (hop : e.job.tx.op = .rewrite gs r) :
    MOk p.m ∧ (∀ g ∈ gs, ∀ f ∈ g.old, ∃ f' ∈ p.m.frags, f'.rows = f.rows) ∧
    (gs.flatMap (fun g => g.old.map (·.id))).Nodup ∧
    e.m.frags.Perm (p.m.frags.filter (fun f => !(gs.flatMap (fun g => ids g.old)).contains f.id) ++ gs.flatMap (·.new)) ∧
    e.m.frags.Pairwise (fun a b => a.id ≤ b.id) := by
  have hv := valid_of_reach hr
  obtain ⟨hok, hfr⟩ := all_ok hv hc
  have h1 := (look_le hp).1
  have hst := valid_step hv h1 he hp
  obtain ⟨rd, hatt, _⟩ := hst.att
  obtain ⟨b, hb, hprep⟩ := hst.prep
  have hbl : Built (some p.m) p.ix _ _ _ := (attempt_build (by rw [hop]; intro w h; cases h) hatt).1
  have hfo := freshOp_of hfr (by have := look_le he; omega) h1 he hp hprep
  have hperm := rewrite_built hbl (hok t p hp) hop hfo
  have hm : e.job.tx.op.Modifies := by rw [hop]; trivial
  have hchk := checked_ops hv hc h1 he hp (by rw [hop]; intro x y z h; cases h) (by rw [hop]; intro x y z w h; cases h)
  unfold Prepared at hprep
  rw [hop] at hprep
  refine ⟨hok t p hp, ?_, hprep.2.1, hperm, ?_⟩
  · intro g hg f hf
    exact named_stable hv hc hm (look_le hb).1 hst.rle (look_le hp).2 hchk hb hp (hprep.1 g hg f hf)
      (by rw [hop]; exact List.mem_flatMap.2 ⟨g, hg, List.mem_map_of_mem hf⟩)
  · obtain ⟨_, _, fs, _, _, _, _, h4, _, _⟩ := hbl.arms
    rw [h4]
    exact sortBy_sorted _ _

theorem rows_id {f g : Frag} (h : g.rows = f.rows) : g.id = f.id := (sameRows_of h).1

theorem nodup_map_of {f : Frag → Frag} (hf : ∀ x, (f x).id = x.id) {l : List Frag} (h : (ids l).Nodup) :
    (l.map f).Nodup := by
  unfold ids at h
  rw [List.Nodup, List.pairwise_map] at h ⊢
  exact h.imp (fun hne he => hne (by rw [← hf, he, hf]))

theorem nodup_of_ids {l : List Frag} (h : (ids l).Nodup) : l.Nodup := by
  have := nodup_map_of (f := fun x => x) (fun _ => rfl) h
  simpa using this

/-- A committed compaction neither loses nor duplicates rows: the new version has exactly the rows of the version
before it (in some order), including all that was committed while the compaction ran.  (Missing: results of tasks
committed through a handle newer than the tasks, `C53_handle_violated`.) -/
theorem C53_contents_partial {α : Type} (val : Nat → Nat → α) {s : Sys} (hr : Reach s) (hc : s.hist.Clean) {t : Nat}
    {e p : Entry} (he : s.hist.look (t + 1) = some e) (hp : s.hist.look t = some p) {gs : List Group}
    {r : List (Nat × Nat)} (hop : e.job.tx.op = .rewrite gs r) (hf : Faithful val gs) :
    (e.m.frags.flatMap (cont val)).Perm (p.m.frags.flatMap (cont val)) := by
  obtain ⟨hok, hsame, hnd, hperm, _⟩ := rewrite_facts hr hc he hp hop
  let q : Frag → Bool := fun f => (gs.flatMap (fun g => ids g.old)).contains f.id
  have hin : ((p.m.frags.filter q).map Frag.rows).Perm ((gs.flatMap (·.old)).map Frag.rows) := by
    rw [List.perm_ext_iff_of_nodup]
    · intro a
      constructor
      · intro ha
        obtain ⟨g, hg, rfl⟩ := List.mem_map.1 ha
        obtain ⟨hg1, hg2⟩ := List.mem_filter.1 hg
        have hg3 : g.id ∈ gs.flatMap (fun g => ids g.old) := by simpa [q] using hg2
        obtain ⟨k, hk, hki⟩ := List.mem_flatMap.1 hg3
        obtain ⟨o, ho, hoi⟩ := mem_ids.1 hki
        obtain ⟨g', hg', hgr⟩ := hsame k hk o ho
        have : g' = g := by
          apply Classical.byContradiction
          intro hne
          have hn := hok.nodup
          unfold ids at hn
          rw [List.Nodup, List.pairwise_map] at hn
          obtain ⟨i, hi, e1⟩ := List.mem_iff_getElem.1 hg'
          obtain ⟨j, hj, e2⟩ := List.mem_iff_getElem.1 hg1
          rw [List.pairwise_iff_getElem] at hn
          have hid : g'.id = g.id := (rows_id hgr).trans hoi
          rcases Nat.lt_trichotomy i j with h | h | h
          · exact hn i j hi hj h (by rw [e1, e2]; exact hid)
          · subst h; exact hne (e1.symm.trans e2)
          · exact hn j i hj hi h (by rw [e1, e2]; exact hid.symm)
        subst this
        exact List.mem_map.2 ⟨o, List.mem_flatMap.2 ⟨k, hk, ho⟩, hgr.symm⟩
      · intro ha
        obtain ⟨o, ho, rfl⟩ := List.mem_map.1 ha
        obtain ⟨k, hk, hok'⟩ := List.mem_flatMap.1 ho
        obtain ⟨g', hg', hgr⟩ := hsame k hk o hok'
        refine List.mem_map.2 ⟨g', List.mem_filter.2 ⟨hg', ?_⟩, hgr⟩
        have : g'.id ∈ gs.flatMap (fun g => ids g.old) := by
          rw [rows_id hgr]
          exact List.mem_flatMap.2 ⟨k, hk, mem_ids.2 ⟨o, hok', rfl⟩⟩
        simpa [q] using this
    · apply nodup_map_of (f := Frag.rows) (fun _ => rfl)
      exact hok.nodup.sublist (List.Sublist.map _ List.filter_sublist)
    · apply nodup_map_of (f := Frag.rows) (fun _ => rfl)
      unfold ids
      rw [List.map_flatMap]
      exact hnd
  have h1 : (p.m.frags.flatMap (cont val)).Perm
      ((p.m.frags.filter q).flatMap (cont val) ++ (p.m.frags.filter (fun x => !q x)).flatMap (cont val)) := by
    rw [← List.flatMap_append]
    exact ((List.filter_append_perm q p.m.frags).flatMap_right _).symm
  have h2 : (e.m.frags.flatMap (cont val)).Perm
      ((p.m.frags.filter (fun x => !q x)).flatMap (cont val) ++ (gs.flatMap (·.new)).flatMap (cont val)) := by
    rw [← List.flatMap_append]
    exact hperm.flatMap_right _
  have h3 : ((gs.flatMap (·.new)).flatMap (cont val)).Perm ((p.m.frags.filter q).flatMap (cont val)) := by
    rw [flatMap_groups hf, flatMap_rows val (gs.flatMap (·.old)), flatMap_rows val (p.m.frags.filter q)]
    exact (hin.flatMap_right _).symm
  exact h2.trans ((List.perm_append_comm.trans (h3.append_right _)).trans h1.symm)

/-- The documented claim about order: a scan returns the rows in the same order as before. -/
def C53_order_statement : Prop :=
  ∀ (val : Nat → Nat → Nat) (s : Sys), Reach s → s.hist.Clean → ∀ t e p gs r,
    s.hist.look (t + 1) = some e → s.hist.look t = some p → e.job.tx.op = .rewrite gs r → Faithful val gs →
    e.m.frags.flatMap (cont val) = p.m.frags.flatMap (cont val)

theorem match_ids {l : List Frag} (hnd : (ids l).Nodup) : ∀ (D O : List Frag), (∀ d ∈ D, d ∈ l) →
    D.map (·.id) = O.map (·.id) → (∀ f ∈ O, ∃ g ∈ l, g.rows = f.rows) → D.map Frag.rows = O.map Frag.rows
  | [], [], _, _, _ => rfl
  | [], _ :: _, _, h, _ => by simp at h
  | _ :: _, [], _, h, _ => by simp at h
  | d :: D, o :: O, hD, h, hO => by
    simp only [List.map_cons, List.cons.injEq] at h
    obtain ⟨g, hg, hgr⟩ := hO o (List.mem_cons_self ..)
    have hgd : g = d := by
      apply Classical.byContradiction
      intro hne
      unfold ids at hnd
      rw [List.Nodup, List.pairwise_map] at hnd
      obtain ⟨i, hi, e1⟩ := List.mem_iff_getElem.1 hg
      obtain ⟨j, hj, e2⟩ := List.mem_iff_getElem.1 (hD d (List.mem_cons_self ..))
      rw [List.pairwise_iff_getElem] at hnd
      have hid : g.id = d.id := (rows_id hgr).trans h.1.symm
      rcases Nat.lt_trichotomy i j with h | h | h
      · exact hnd i j hi hj h (by rw [e1, e2]; exact hid)
      · subst h; exact hne (e1.symm.trans e2)
      · exact hnd j i hj hi h (by rw [e1, e2]; exact hid.symm)
    subst hgd
    simp only [List.map_cons, List.cons.injEq]
    exact ⟨hgr, match_ids hnd D O (fun x hx => hD x (List.mem_cons_of_mem _ hx)) h.2
      (fun x hx => hO x (List.mem_cons_of_mem _ hx))⟩

/-- Order is kept when the rewritten fragments are the last ones of the dataset and the ids of the new fragments
come after those of the fragments left alone.  (Missing: any fragment left alone after a rewritten one.) -/
theorem C53_order_partial {α : Type} (val : Nat → Nat → α) {s : Sys} (hr : Reach s) (hc : s.hist.Clean) {t : Nat}
    {e p : Entry} (he : s.hist.look (t + 1) = some e) (hp : s.hist.look t = some p) {gs : List Group}
    {r : List (Nat × Nat)} (hop : e.job.tx.op = .rewrite gs r) (hf : Faithful val gs) (A : List Nat)
    (hlast : p.m.frags.map (·.id) = A ++ (gs.flatMap (·.old)).map (·.id))
    (hids : (A ++ (gs.flatMap (·.new)).map (·.id)).Pairwise (· < ·)) :
    e.m.frags.flatMap (cont val) = p.m.frags.flatMap (cont val) := by
  obtain ⟨hok, hsame, hnd, hperm, hsorted⟩ := rewrite_facts hr hc he hp hop
  obtain ⟨P1, P2, hP, e1, e2⟩ := List.map_eq_append_iff.1 hlast
  have hnod : (A ++ (gs.flatMap (·.old)).map (·.id)).Nodup := by rw [← hlast]; exact hok.nodup
  rw [List.nodup_append] at hnod
  have hflat : gs.flatMap (fun g => ids g.old) = (gs.flatMap (·.old)).map (·.id) := by
    rw [List.map_flatMap]; rfl
  have hK : p.m.frags.filter (fun f => !(gs.flatMap (fun g => ids g.old)).contains f.id) = P1 := by
    rw [hP, List.filter_append, hflat, List.filter_eq_self.2, List.filter_eq_nil_iff.2, List.append_nil]
    · intro f hf'
      have : f.id ∈ (gs.flatMap (·.old)).map (·.id) := by rw [← e2]; exact List.mem_map_of_mem hf'
      rw [List.contains_iff_mem.2 this]
      decide
    · intro f hf'
      have h1 : f.id ∈ A := by rw [← e1]; exact List.mem_map_of_mem hf'
      have h2 : f.id ∉ (gs.flatMap (·.old)).map (·.id) := fun h2 => hnod.2.2 _ h1 _ h2 rfl
      simpa using h2
  rw [hK] at hperm
  have hpw : (P1 ++ gs.flatMap (·.new)).Pairwise (fun a b => a.id < b.id) := by
    rw [← e1, ← List.map_append] at hids
    exact List.pairwise_map.1 hids
  have heq : e.m.frags = P1 ++ gs.flatMap (·.new) := by
    refine List.Perm.eq_of_pairwise (le := fun a b => a.id ≤ b.id) ?_ hsorted (hpw.imp Nat.le_of_lt) hperm
    intro a b ha hb h1 h2
    have ha' := hperm.mem_iff.1 ha
    apply Classical.byContradiction
    intro hne
    obtain ⟨i, hi, x1⟩ := List.mem_iff_getElem.1 ha'
    obtain ⟨j, hj, x2⟩ := List.mem_iff_getElem.1 hb
    rw [List.pairwise_iff_getElem] at hpw
    rcases Nat.lt_trichotomy i j with h | h | h
    · have := hpw i j hi hj h; rw [x1, x2] at this; omega
    · subst h; exact hne (x1.symm.trans x2)
    · have := hpw j i hj hi h; rw [x1, x2] at this; omega
  have hrows : P2.map Frag.rows = (gs.flatMap (·.old)).map Frag.rows :=
    match_ids hok.nodup P2 _ (fun d hd => by rw [hP]; exact List.mem_append_right _ hd) e2 (by
      intro f hf'
      obtain ⟨g, hg, hfg⟩ := List.mem_flatMap.1 hf'
      exact hsame g hg f hfg)
  rw [heq, hP, List.flatMap_append, List.flatMap_append, flatMap_groups hf, flatMap_rows val P2, hrows,
    ← flatMap_rows]

/-! ## Counterexamples and cases -/

/-- Fragments 0 and 1 with one row each are merged into fragment 3; fragment 2 with 9 rows stays. -/
private def xgroups : List Group :=
  [⟨[⟨0, [xf 1], none, none, some 1⟩, ⟨1, [xf 2], none, none, some 1⟩], [⟨3, [xf 4], none, none, some 2⟩]⟩]

/-- The rewritten fragment has a new, larger id, and the fragments are sorted by id at the end (transaction.rs:913):
its rows move behind the fragment that was left alone. -/
theorem C53_order_violated : ¬ C53_order_statement := by
  intro hst
  obtain ⟨s, k, h1, _, h3, ⟨e, he, q1, q2⟩, ⟨p, hp, r1⟩⟩ := play_ex (cached := false)
    (j := xcreate [xnew 1 1, xnew 2 1, xnew 3 9])
    (js := [xtx 1 101 (.reserve 1), xtx 1 102 (.rewrite xgroups []) false [2]])
    (fun h => h.At 3 (fun e => e.job.tx.op = .rewrite xgroups [] ∧
        e.m.frags = [⟨2, [xf 3], none, none, some 9⟩, ⟨3, [xf 4], none, none, some 2⟩]) ∧
      h.At 2 (fun e => e.m.frags = [⟨0, [xf 1], none, none, some 1⟩, ⟨1, [xf 2], none, none, some 1⟩,
        ⟨2, [xf 3], none, none, some 9⟩])) (by decide +kernel)
  have := hst (fun i o => if i = 2 then 5 else if i = 3 then o else i) s h1 h3 2 e p xgroups [] he hp q1
    (by intro g hg; simp only [xgroups, List.mem_singleton] at hg; subst hg; decide)
  rw [q2, r1] at this
  revert this
  decide

/-- The case of `C53_contents_partial`: while fragments 0 and 1 are compacted, rows are deleted from fragment 2 and
fragment 4 is appended. -/
example : ∃ (s : Sys) (e p : Entry), Reach s ∧ s.hist.Clean ∧ s.hist.look 5 = some e ∧ s.hist.look 4 = some p ∧
    e.job.tx.op = .rewrite xgroups [] ∧ e.job.tx.read = 1 ∧
    Faithful (fun i o => if i = 2 then 5 else if i = 3 then o else i) xgroups ∧
    e.m.frags.map (·.id) = [2, 3, 4] ∧ p.m.frags.map (·.id) = [0, 1, 2, 4] := by
  obtain ⟨s, k, h1, _, h3, ⟨e, he, q1, q2, q3⟩, ⟨p, hp, r1⟩⟩ := play_ex (cached := false)
    (j := xcreate [xnew 1 1, xnew 2 1, xnew 3 9])
    (js := [xtx 1 101 (.reserve 1), xtx 2 103 (.delete [⟨2, [xf 3], some ⟨2, 7, [1]⟩, none, some 9⟩] [] 0),
      xtx 1 104 (.append [xnew 5 4]), xtx 1 102 (.rewrite xgroups []) false [2]])
    (fun h => h.At 5 (fun e => e.job.tx.op = .rewrite xgroups [] ∧ e.job.tx.read = 1 ∧ e.m.frags.map (·.id) = [2, 3, 4]) ∧
      h.At 4 (fun e => e.m.frags.map (·.id) = [0, 1, 2, 4])) (by decide +kernel)
  exact ⟨s, e, p, h1, h3, he, hp, q1, q2, by
    intro g hg; simp only [xgroups, List.mem_singleton] at hg; subst hg; decide, q3, r1⟩

/-- The case of `C53_order_partial`: the last two fragments are merged. -/
private def xgroups2 : List Group :=
  [⟨[⟨1, [xf 2], none, none, some 1⟩, ⟨2, [xf 3], none, none, some 1⟩], [⟨3, [xf 4], none, none, some 2⟩]⟩]

example : ∃ (s : Sys) (e p : Entry), Reach s ∧ s.hist.Clean ∧ s.hist.look 3 = some e ∧ s.hist.look 2 = some p ∧
    e.job.tx.op = .rewrite xgroups2 [] ∧ Faithful (fun i o => if i = 3 then o + 1 else i) xgroups2 ∧
    p.m.frags.map (·.id) = [0] ++ (xgroups2.flatMap (·.old)).map (·.id) ∧
    ([0] ++ (xgroups2.flatMap Group.new).map Frag.id).Pairwise (· < ·) := by
  obtain ⟨s, k, h1, _, h3, ⟨e, he, q1⟩, ⟨p, hp, r1⟩⟩ := play_ex (cached := false)
    (j := xcreate [xnew 1 9, xnew 2 1, xnew 3 1])
    (js := [xtx 1 101 (.reserve 1), xtx 1 102 (.rewrite xgroups2 []) false [2]])
    (fun h => h.At 3 (fun e => e.job.tx.op = .rewrite xgroups2 []) ∧
      h.At 2 (fun e => e.m.frags.map (·.id) = [0, 1, 2])) (by decide +kernel)
  exact ⟨s, e, p, h1, h3, he, hp, q1, by
    intro g hg; simp only [xgroups2, List.mem_singleton] at hg; subst hg; decide, by rw [r1]; rfl, by decide⟩

/-- The results of compaction tasks, committed at once through a handle at version `w`: the tasks were run on older or
equal versions, the conflict check of the commit passes and the commit succeeds.  Then nothing is lost. -/
def C53_handle_statement : Prop :=
  ∀ (val : Nat → Nat → Nat) (s : Sys), Reach s → s.hist.Clean →
    ∀ (p : Entry) (h : Hist) (w uuid : Nat) (tasks : List Result) (m : Manifest) (ix : List Idx),
    s.hist = p :: h →
    (∀ r ∈ tasks, r.read ≤ w ∧ ∃ b, s.hist.look r.read = some b ∧ (∀ f ∈ r.old, f ∈ b.m.frags) ∧
      ∀ f ∈ r.new, ∃ v, Granted s.hist v f.id ∧ f.id ∉ ids p.m.frags) →
    w ≤ s.hist.length →
    Faithful val (tasks.map (fun t => ⟨t.old, t.new⟩)) →
    (∀ v ∈ versionsAfter w s.hist.length, noConflict s.hist (fun _ => false) (commitTx w uuid tasks []) v = true) →
    attempt (Hist.read s.hist []) (p.m, p.ix) (commitTx w uuid tasks []) (s.hist.length + 1) = .ok (m, ix) →
    (m.frags.flatMap (cont val)).Perm (p.m.frags.flatMap (cont val))

private def xtask : Result := ⟨[⟨0, [xf 1], none, none, some 2⟩, ⟨1, [xf 2], none, none, some 1⟩], [⟨2, [xf 4], none, none, some 3⟩], 1⟩

/-- `commit_compaction` takes the version of the handle, not that of the tasks, as the version read
(optimize.rs:894-895): a row deleted after the tasks ran comes back when the handle is newer than the delete. -/
theorem C53_handle_violated : ¬ C53_handle_statement := by
  intro hst
  obtain ⟨s, k, h1, _, h3, hlen, ⟨b, hb, q1⟩, ⟨p, hp, r1, r2, r3⟩, hgr⟩ := play_ex (cached := false)
    (j := xcreate [xnew 1 2, xnew 2 1])
    (js := [xtx 1 101 (.reserve 1), xtx 2 103 (.delete [⟨0, [xf 1], some ⟨2, 7, [1]⟩, none, some 2⟩] [] 0)])
    (fun h => h.length = 3 ∧ h.At 1 (fun e => e.m.frags = [⟨0, [xf 1], none, none, some 2⟩, ⟨1, [xf 2], none, none, some 1⟩]) ∧
      h.At 3 (fun e => e.m.frags = [⟨0, [xf 1], some ⟨2, 7, [1]⟩, none, some 2⟩, ⟨1, [xf 2], none, none, some 1⟩] ∧
        (h.head? = some e) ∧
        (match attempt (Hist.read h []) (e.m, e.ix) (commitTx 3 9 [xtask] []) 4 with
            | .ok (m, _) => decide (m.frags = [⟨2, [xf 4], none, none, some 3⟩])
            | .error _ => false) = true) ∧ Granted h 2 2) (by decide +kernel)
  cases hs : s.hist with
  | nil => rw [hs] at hlen; cases hlen
  | cons p' h =>
    rw [hs] at r2
    simp only [List.head?_cons, Option.some.injEq] at r2
    subst r2
    cases hatt : attempt (Hist.read s.hist []) (p'.m, p'.ix) (commitTx 3 9 [xtask] []) 4 with
    | error _ => rw [hatt] at r3; cases r3
    | ok o =>
      obtain ⟨m, ix⟩ := o
      rw [hatt] at r3
      have hm := of_decide_eq_true r3
      have := hst (fun i o => if i = 2 then o else if i = 0 then o else 2) s h1 h3 p' h 3 9 [xtask] m ix hs
        (by
          intro r hr
          rw [List.mem_singleton] at hr
          subst hr
          refine ⟨by decide, b, hb, ?_, ?_⟩
          · intro f hf; rw [q1]; exact hf
          · intro f hf
            simp only [xtask, List.mem_singleton] at hf
            subst hf
            exact ⟨2, hgr, by rw [r1]; decide⟩)
        (by rw [hlen]; decide)
        (by intro g hg; simp only [xtask, List.map_cons, List.map_nil, List.mem_singleton] at hg; subst hg; decide)
        (by rw [hlen]; intro v hv; simp [versionsAfter] at hv) (by rw [hlen]; exact hatt)
      rw [hm, r1] at this
      have := this.length_eq
      revert this
      decide

end Verif.Compact
