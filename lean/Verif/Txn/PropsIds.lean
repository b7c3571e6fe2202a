import Verif.Txn.Lineage
import Verif.Txn.Play
/-!
# C15 (fragment ids) and C46 (reservations)

All statements range over every state reachable in the transition system of `Verif.Txn.System`: any
number of writers, any interleaving, crashes and cleanups.
-/
namespace Verif.Txn

/-! ## C15 -/

/-- Full claim: ids are unique in every version, and one id never denotes two fragments (fragments with
different row counts are certainly different). -/
def C15_statement : Prop :=
  ∀ s, Reach s →
    (∀ v e, s.hist.look v = some e → (e.m.frags.map (·.id)).Nodup) ∧
    (∀ a b ea eb f g, s.hist.look a = some ea → s.hist.look b = some eb → f ∈ ea.m.frags → g ∈ eb.m.frags →
      f.id = g.id → f.phys = g.phys)

/-- In every version of a reachable history in which no writer's check was cut short by a cleanup,
fragment ids are unique, stored in increasing order and below the recorded maximum. -/
theorem C15_unique_ids_partial {s : Sys} (hr : Reach s) (hc : s.hist.Clean) {v : Nat} {e : Entry}
    (he : s.hist.look v = some e) :
    (e.m.frags.map (·.id)).Nodup ∧ (e.m.frags.map (·.id)).Pairwise (· < ·) ∧ ∀ f ∈ e.m.frags, f.id ≤ e.m.maxFrag := by
  have hv := valid_of_reach hr
  have hok := (all_ok hv hc).1 v e he
  refine ⟨hok.nodup, ?_, hok.le⟩
  have hs := sorted_all hv he
  have h1 : (e.m.frags.map (·.id)).Pairwise (· ≤ ·) := List.pairwise_map.2 hs
  have h2 : (e.m.frags.map (·.id)).Pairwise (· ≠ ·) := hok.nodup
  exact (h1.and h2).imp (fun h => by omega)

/-- As long as no version in between restores or overwrites, and some fragment id other than 0 had
been used before every version that has no fragments, an id in two versions is in all versions between them and denotes the same fragment: same number
of physical rows, same row ids, and everything deleted in the earlier version is deleted in the later. -/
theorem C15_same_fragment_partial {s : Sys} (hr : Reach s) (hc : s.hist.Clean) {a b : Nat} {ea eb : Entry}
    (ha : s.hist.look a = some ea) (hb : s.hist.look b = some eb) (hab : a ≤ b)
    (hlin : ∀ u e, a < u → u ≤ b → s.hist.look u = some e →
      (∀ w, e.job.tx.op ≠ .restore w) ∧ ∀ x y z, e.job.tx.op ≠ .overwrite x y z)
    (hmax : ea.m.maxFrag ≠ 0 ∨ ∀ u e, a ≤ u → u < b → s.hist.look u = some e → e.m.maxFrag ≠ 0 ∨ e.m.frags ≠ [])
    {f g : Frag} (hf : f ∈ ea.m.frags) (hg : g ∈ eb.m.frags) (hid : g.id = f.id) :
    (g.phys = f.phys ∧ g.rowIds = f.rowIds ∧ ∀ o ∈ f.offs, o ∈ g.offs) ∧
      ∀ u e, a ≤ u → u ≤ b → s.hist.look u = some e → f.id ∈ e.m.frags.map (·.id) := by
  have hv := valid_of_reach hr
  have key : ∀ b eb, s.hist.look b = some eb → a ≤ b → s.hist.Linear a b →
      (ea.m.maxFrag ≠ 0 ∨ ∀ u e, a ≤ u → u < b → s.hist.look u = some e → e.m.maxFrag ≠ 0 ∨ e.m.frags ≠ []) →
      ∀ g ∈ eb.m.frags, g.id = f.id →
      f.Later g ∧ ∀ u e, a ≤ u → u ≤ b → s.hist.look u = some e → f.id ∈ ids e.m.frags := by
    intro b
    induction b with
    | zero => intro eb hb; exact absurd (look_le hb).1 (by omega)
    | succ b ih =>
      intro eb hb hab hlin hmax g hg hid
      by_cases hc' : a = b + 1
      · subst hc'
        rw [ha] at hb; cases hb
        have : g = f := nodup_ids_eq ((all_ok hv hc).1 _ _ ha).nodup hg hf hid
        subst this
        refine ⟨Frag.Later.refl _, fun u e h1 h2 h3 => ?_⟩
        have : u = b + 1 := by omega
        subst this
        rw [ha] at h3; cases h3
        exact mem_ids_of hf
      · have h1a := (look_le ha).1
        obtain ⟨p, hp⟩ := look_exists (h := s.hist) (v := b) (by omega) (by have := (look_le hb).2; omega)
        have hin : g.id ∈ ids p.m.frags := by
          by_cases h : g.id ∈ ids p.m.frags
          · exact h
          · exact absurd (by rw [hid]; exact mem_ids_of hf)
              (new_id_fresh hv hc h1a (by omega) ha hb hp hlin
                (hmax.imp (fun h0 => h0) (fun h0 => h0 b p (by omega) (by omega) hp)) (mem_ids_of hg) h)
        obtain ⟨g', hg', hgid⟩ := mem_ids.1 hin
        obtain ⟨h1, h2⟩ := ih p hp (by omega) (hlin.mono (Nat.le_refl _) (by omega))
          (hmax.imp (fun h0 => h0) (fun h0 u e k1 k2 => h0 u e k1 (by omega))) g' hg' (hgid.trans hid)
        obtain ⟨hres, hov⟩ := hlin (b + 1) eb (by omega) (Nat.le_refl _) hb
        refine ⟨h1.trans (carry hv hc (by omega) hb hp hres hov hg' hg hgid.symm), fun u e h3 h4 h5 => ?_⟩
        by_cases hu : u = b + 1
        · subst hu; rw [hb] at h5; cases h5; rw [← hid]; exact mem_ids_of hg
        · exact h2 u e h3 (by omega) h5
  obtain ⟨h1, h2⟩ := key b eb hb hab hlin hmax g hg hid
  exact ⟨⟨h1.2.1, h1.2.2.1, h1.2.2.2⟩, h2⟩

/-- An example meeting the hypotheses: create, append, delete in fragment 0 by a writer that read
version 1, then a compaction of fragments 0 and 1 with reserved ids. -/
def x15 : Option Hist :=
  play false (xcreate [xnew 1 3, xnew 2 2])
    [xtx 1 101 (.append [xnew 3 4]),
     xtx 1 102 (.delete [⟨0, [xf 1], some ⟨1, 7, [2]⟩, none, some 3⟩] [] 0),
     xtx 3 103 (.reserve 1),
     xtx 3 104 (.rewrite [⟨[⟨0, [xf 1], some ⟨1, 7, [2]⟩, none, some 3⟩, ⟨1, [xf 2], none, none, some 2⟩],
        [⟨3, [xf 9], none, none, some 4⟩]⟩] []) false [4]]

example : (x15.map (fun h => h.map (fun e => (e.m.frags.map (fun f => (f.id, f.offs)), e.m.maxFrag)))) =
    some [([(2, []), (3, [])], 3), ([(0, [2]), (1, []), (2, [])], 3), ([(0, [2]), (1, []), (2, [])], 2),
      ([(0, []), (1, []), (2, [])], 2), ([(0, []), (1, [])], 1)] := by decide +kernel

example : ∃ s, Reach s ∧ s.hist.Clean ∧ s.hist.length = 5 := by
  have h : x15.isSome = true := by decide +kernel
  obtain ⟨H, hH⟩ := Option.isSome_iff_exists.1 h
  obtain ⟨s, h1, h2, _⟩ := play_reach hH
  refine ⟨s, h1, by rw [h2]; exact play_clean hH, ?_⟩
  have : x15.map List.length = some 5 := by decide +kernel
  rw [hH] at this
  rw [h2]; exact Option.some.inj this

/-- A history with an id used for two fragments of different size refutes the full claim. -/
theorem c15_refute {js : List Job} {j : Job} {k : Nat} {a b : Nat}
    (hx : ((play false j js).bind (fun h => (h.look a).bind (fun ea => (h.look b).map (fun eb =>
      (ea.m.frags.any (fun f => eb.m.frags.any (fun g => f.id == k && g.id == k && decide (f.phys ≠ g.phys)))))))) =
      some true) : ¬ C15_statement := by
  intro hst
  cases hp : play false j js with
  | none => rw [hp] at hx; cases hx
  | some h =>
    rw [hp] at hx
    obtain ⟨s, h1, h2, _⟩ := play_reach hp
    simp only [Option.bind_some] at hx
    cases ha : h.look a with
    | none => rw [ha] at hx; cases hx
    | some ea =>
      cases hb : h.look b with
      | none => rw [ha, hb] at hx; cases hx
      | some eb =>
        rw [ha, hb] at hx
        simp only [Option.bind_some, Option.map_some, Option.some.injEq, List.any_eq_true, Bool.and_eq_true,
          beq_iff_eq, decide_eq_true_eq] at hx
        obtain ⟨f, hf, g, hg, ⟨h3, h4⟩, h5⟩ := hx
        exact h5 ((hst s h1).2 a b ea eb f g (by rw [h2]; exact ha) (by rw [h2]; exact hb) hf hg (h3.trans h4.symm))

/-- After a restore the recorded maximum is that of the restored version, so ids are handed out again. -/
theorem C15_restore_violated : ¬ C15_statement :=
  c15_refute (j := xcreate [xnew 1 3]) (a := 2) (b := 4) (k := 1)
    (js := [xtx 1 101 (.append [xnew 2 4]), xtx 2 102 (.restore 1), xtx 3 103 (.append [xnew 3 5])]) (by decide +kernel)

/-- An overwrite numbers its fragments from 0 again. -/
theorem C15_overwrite_violated : ¬ C15_statement :=
  c15_refute (j := xcreate [xnew 1 3]) (a := 1) (b := 2) (k := 0)
    (js := [xtx 1 101 (.overwrite [xnew 2 4] xschema none)]) (by decide +kernel)

/-- A maximum of 0 is read as "unknown": once the only fragment (with id 0) is deleted, id 0 is handed
out again. -/
theorem C15_zero_violated : ¬ C15_statement :=
  c15_refute (j := xcreate [xnew 1 3]) (a := 1) (b := 3) (k := 0)
    (js := [xtx 1 101 (.delete [] [0] 0), xtx 2 102 (.append [xnew 2 4])]) (by decide +kernel)

/-! ## C46 -/

/-- Full claim: two reservations never hand out the same id. -/
def C46_statement : Prop :=
  ∀ s, Reach s → ∀ v w i, v ≠ w → Granted s.hist v i → ¬ Granted s.hist w i

theorem granted_apart {H : Hist} (hv : Valid H) (hc : H.Clean) {v w i : Nat} (hvw : v < w)
    (hno : ∀ u e, v < u → u < w → H.look u = some e → ∀ x, e.job.tx.op ≠ .restore x)
    (hg : Granted H v i) : ¬ Granted H w i := by
  intro hg'
  have hok := (all_ok hv hc).1
  obtain ⟨e, p, a1, a2, a3, a4, a5, a6⟩ := granted_bounds hv hok hg
  obtain ⟨e', p', b1, b2, b3, b4, b5, b6⟩ := granted_bounds hv hok hg'
  have := mono_segment hv hok (a := v) (b := w - 1) (by omega) (by omega) (by have := look_le b1; omega)
    (fun u x h1 h2 h3 => hno u x h1 (by omega) h3) a1 b2
  omega

/-- Without a restore between them, two reservations have no id in common. -/
theorem C46_reservations_disjoint_partial {s : Sys} (hr : Reach s) (hc : s.hist.Clean) {v w i : Nat} (hvw : v < w)
    (hno : ∀ u e, v < u → u < w → s.hist.look u = some e → ∀ x, e.job.tx.op ≠ .restore x)
    (hg : Granted s.hist v i) : ¬ Granted s.hist w i :=
  granted_apart (valid_of_reach hr) hc hvw hno hg

/-- Without a restore or overwrite since, an id granted by the reservation in version `v` is on no
fragment of a later version unless a job that owns the reservation committed. -/
theorem C46_not_given_to_others_partial {s : Sys} (hr : Reach s) (hc : s.hist.Clean) {v i : Nat}
    (hg : Granted s.hist v i) {u : Nat} {e : Entry} (hvu : v ≤ u) (he : s.hist.look u = some e)
    (hlin : ∀ w x, v < w → w ≤ u → s.hist.look w = some x →
      (∀ y, x.job.tx.op ≠ .restore y) ∧ ∀ y z t, x.job.tx.op ≠ .overwrite y z t)
    (hown : ∀ w x, v < w → w ≤ u → s.hist.look w = some x → v ∉ x.job.resv) :
    i ∉ e.m.frags.map (·.id) := by
  have hv := valid_of_reach hr
  obtain ⟨hok, hfr⟩ := all_ok hv hc
  obtain ⟨ev, pv, a1, a2, a3, a4, a5, a6⟩ := granted_bounds hv hok hg
  have h0 : i ∉ ids ev.m.frags := by
    intro hm
    obtain ⟨f, hf, hfi⟩ := mem_ids.1 hm
    have := (hok _ _ a2).le f ((a6 f).1 hf)
    omega
  induction u generalizing e with
  | zero => omega
  | succ u ih =>
    by_cases hvu' : v = u + 1
    · rw [hvu'] at a1; rw [a1] at he; cases he; exact h0
    · have hul := (look_le he).2
      obtain ⟨p, hp⟩ := look_exists (h := s.hist) (v := u) (by omega) (by omega)
      have hprev := ih (by omega) hp (fun w x h1 h2 => hlin w x h1 (by omega)) (fun w x h1 h2 => hown w x h1 (by omega))
      intro hmem
      have hlin1 : s.hist.Linear v (u + 1) := hlin
      have hst := valid_step hv (by omega) he hp
      obtain ⟨rd, hatt, _⟩ := hst.att
      obtain ⟨b, hb, hprep⟩ := hst.prep
      obtain ⟨hres, hover⟩ := hlin (u + 1) e (by omega) (Nat.le_refl _) he
      have hbl : Built (some p.m) p.ix _ _ _ := (attempt_build hres hatt).1
      have hmono := mono_segment hv hok (a := v) (b := u) (by omega) (by omega) (look_le hp).2
        (fun w x k1 k2 k3 => (hlin w x k1 (by omega) k3).1) a1 hp
      by_cases hmg : ∃ x y, e.job.tx.op = .merge x y
      · have hpm : ev.m.maxFrag ≠ 0 := by omega
        obtain ⟨x, y, hop⟩ := hmg
        obtain ⟨schema, nr, fs, nr', k1, k2, k3, k4, k5, k6⟩ := hbl.arms
        rw [hop] at k3
        simp only [opArms, Except.ok.injEq, Prod.mk.injEq] at k3
        rw [← k3.1] at k4
        have hchk := checked_ops hv hc (by omega) he hp (by rw [hop]; intro x y z h; cases h)
          (by rw [hop]; intro x y z w h; cases h)
        rw [hop] at hchk
        have hsame := merge_stable hv (look_le hb).1 hst.rle (look_le hp).2 hchk hb hp
        unfold Prepared at hprep
        rw [hop] at hprep
        have hprep' : x.map Frag.rows = p.m.frags.map Frag.rows := by rw [hsame]; exact hprep
        obtain ⟨g, hg1, hgi⟩ := mem_ids.1 hmem
        rw [k4, mem_sortBy] at hg1
        have : g.rows ∈ x.map Frag.rows := List.mem_map_of_mem hg1
        rw [hprep'] at this
        obtain ⟨f', hf', hr'⟩ := List.mem_map.1 this
        have hid' : f'.id = g.id := by have := congrArg Frag.id hr'; exact this
        exact hprev (mem_ids.2 ⟨f', hf', hid'.trans hgi⟩)
      · have hia := ids_after hbl (hok u p hp) hover (fun x y h => hmg ⟨x, y, h⟩)
          (step_new_ids (c := p.m) hprep (fun gs r hop => hfr u e p (by omega) (by omega) he hp gs r hop))
        rcases hia.2 i hmem with h | h
        · exact hprev h
        · have hpm : p.m.maxFrag ≠ 0 := by omega
          have hfid := firstFragId_gt_max (op := e.job.tx.op) hover hpm
          cases hop : e.job.tx.op with
          | append fs => rw [hop] at h hfid; simp only at h; omega
          | update x y z => rw [hop] at h hfid; simp only at h; omega
          | rewrite gs r =>
            rw [hop] at h
            obtain ⟨g, hg1, hgi⟩ := h
            obtain ⟨nf, hnf, hnfi⟩ := mem_ids.1 hgi
            obtain ⟨w, hw, hwv, hgr⟩ := hst.grant gs r hop g hg1 nf hnf
            rw [hnfi] at hgr
            have hne : w ≠ v := fun h => hown (u + 1) e (by omega) (Nat.le_refl _) he (h ▸ hw)
            rcases Nat.lt_or_ge v w with hlt | hge
            · exact granted_apart hv hc hlt (fun w' x h1 h2 h3 => (hlin w' x h1 (by omega) h3).1) hg hgr
            · unfold Prepared at hprep
              rw [hop] at hprep
              have hread := hprep.2.2.2.2.1 w hw
              have hchk := checked_ops hv hc (by omega) he hp (by rw [hop]; intro x y z h; cases h)
                (by rw [hop]; intro x y z w h; cases h)
              rw [hop] at hchk
              exact granted_apart hv hc (v := w) (w := v) (by omega)
                (fun w' x h1 h2 h3 => (rewrite_compatible (hchk w' x (by omega) (by omega) h3)).1) hgr hg
          | _ => rw [hop] at h; exact h.elim

/-- A compaction that commits used ids that were on no fragment of any version since it reserved them,
whatever else was committed meanwhile; and they are not 0. -/
theorem C46_committed_rewrite_partial {s : Sys} (hr : Reach s) (hc : s.hist.Clean) {t : Nat} {e : Entry}
    (he : s.hist.look (t + 1) = some e) {gs : List Group} {r : List (Nat × Nat)} (hop : e.job.tx.op = .rewrite gs r)
    {g : Group} (hg : g ∈ gs) {f : Frag} (hf : f ∈ g.new) :
    f.id ≠ 0 ∧ f.id ∈ e.m.frags.map (·.id) ∧
      ∃ v ∈ e.job.resv, v ≤ t ∧ ∀ u x, v ≤ u → u ≤ t → s.hist.look u = some x → f.id ∉ x.m.frags.map (·.id) := by
  have hv := valid_of_reach hr
  obtain ⟨hok, hfr⟩ := all_ok hv hc
  have hlen := (look_le he).2
  have h1 : 1 ≤ t := by
    rcases Nat.eq_zero_or_pos t with h | h
    · subst h
      obtain ⟨⟨fs, sch, up, ho, _⟩, _⟩ := valid_first hv he
      rw [hop] at ho; cases ho
    · exact h
  obtain ⟨p, hp⟩ := look_exists (h := s.hist) (v := t) h1 (by omega)
  have hst := valid_step hv h1 he hp
  obtain ⟨b, hb, hprep⟩ := hst.prep
  obtain ⟨rd, hatt, _⟩ := hst.att
  have hbl : Built (some p.m) p.ix _ _ _ := (attempt_build (by intro w; rw [hop]; intro h; cases h) hatt).1
  have hperm := rewrite_built hbl (hok t p hp) hop (freshOp_of hfr (by omega) h1 he hp hprep)
  obtain ⟨v, hvr, hvt, hgr⟩ := hst.grant gs r hop g hg f hf
  refine ⟨((hfr t e p (by omega) h1 he hp gs r hop).1 g hg f hf).1, ?_, v, hvr, hvt, ?_⟩
  · exact mem_ids.2 ⟨f, hperm.mem_iff.2 (List.mem_append_right _ (List.mem_flatMap.2 ⟨g, hg, hf⟩)), rfl⟩
  · unfold Prepared at hprep
    rw [hop] at hprep
    exact reserved_fresh hv hc hok (n := t) (by omega) hop (fun u x k1 k2 => hst.hex u x k1 k2)
      hprep.2.2.2.2.1 (fun u k1 k2 => hst.chk (clean_at hc he) u k1 k2) hvr hgr
      (fun u e' p' k1 => hfr u e' p' (by omega))

/-- Two reservations with a restore between them get the same id. -/
theorem C46_violated : ¬ C46_statement := by
  intro hst
  have hx : (play false (xcreate [xnew 1 3])
      [xtx 1 101 (.reserve 2), xtx 2 102 (.restore 1), xtx 3 103 (.reserve 2)]).map (fun h =>
        decide (Granted h 2 1 ∧ Granted h 4 1)) = some true := by decide +kernel
  cases hp : play false (xcreate [xnew 1 3])
      [xtx 1 101 (.reserve 2), xtx 2 102 (.restore 1), xtx 3 103 (.reserve 2)] with
  | none => rw [hp] at hx; cases hx
  | some h =>
    rw [hp] at hx
    simp only [Option.map_some, Option.some.injEq, decide_eq_true_eq] at hx
    obtain ⟨s, h1, h2, _⟩ := play_reach hp
    exact hst s h1 2 4 1 (by decide) (by rw [h2]; exact hx.1) (by rw [h2]; exact hx.2)

/-- In `x15` version 4 grants id 3, which the compaction in version 5 uses. -/
example : x15.map (fun h => decide (Granted h 4 3)) = some true := by decide +kernel

end Verif.Txn
