import Verif.Txn.Isolation
/-!
# A fragment id denotes the same fragment from version to version
-/
namespace Verif.Txn

/-- `g` is `f`, possibly with more deletions and other data files. -/
def Frag.Later (f g : Frag) : Prop :=
  g.id = f.id ∧ g.phys = f.phys ∧ g.rowIds = f.rowIds ∧ ∀ o ∈ f.offs, o ∈ g.offs

theorem Frag.Later.refl (f : Frag) : f.Later f := ⟨rfl, rfl, rfl, fun _ h => h⟩

theorem Frag.Later.trans {f g h : Frag} (a : f.Later g) (b : g.Later h) : f.Later h :=
  ⟨b.1.trans a.1, b.2.1.trans a.2.1, b.2.2.1.trans a.2.2.1, fun o ho => b.2.2.2 o (a.2.2.2 o ho)⟩

theorem later_of_rows {f g : Frag} (h : g.rows = f.rows) : f.Later g := by
  have h1 : g.id = f.id := by have := congrArg Frag.id h; exact this
  have h2 : g.phys = f.phys := by have := congrArg Frag.phys h; exact this
  have h3 : g.rowIds = f.rowIds := by have := congrArg Frag.rowIds h; exact this
  have h4 : g.del = f.del := by have := congrArg Frag.del h; exact this
  refine ⟨h1, h2, h3, fun o ho => ?_⟩
  unfold Frag.offs at *
  rw [h4]; exact ho

/-- A fragment with new deletions made from version `r` is a later form of the fragment in the version
it is committed on. -/
theorem updated_later {H : Hist} (hv : Valid H) (hcl : H.Clean) {v : Nat} {e p : Entry} (h1 : 1 ≤ v)
    (he : H.look (v + 1) = some e) (hp : H.look v = some p) (hm : e.job.tx.op.Modifies)
    {b : Entry} (hb : H.look e.job.tx.read = some b) {u f : Frag} (hu : UpdatedFrag b.m u)
    (hui : u.id ∈ e.job.tx.op.modifiedIds) (hf : f ∈ p.m.frags) (hid : u.id = f.id) : f.Later u := by
  obtain ⟨hok, _⟩ := all_ok hv hcl
  obtain ⟨f0, hf0, a1, a2, a3, a4⟩ := hu
  have hst := valid_step hv h1 he hp
  have hchk := checked_ops hv hcl h1 he hp (by intro x y z h; rw [h] at hm; exact hm)
    (by intro x y z w h; rw [h] at hm; exact hm)
  obtain ⟨g, hg, hgr⟩ := named_stable hv hcl hm (look_le hb).1 hst.rle (look_le hp).2 hchk hb hp hf0 (by rw [← a1]; exact hui)
  have hgid : g.id = f0.id := by have := congrArg Frag.id hgr; exact this
  have hgf : g = f := nodup_ids_eq (hok v p hp).nodup hg hf (by rw [hgid, ← a1, hid])
  subst hgf
  obtain ⟨b1, b2, b3, b4⟩ := later_of_rows hgr.symm
  exact ⟨hid, a3.trans b2, a2.trans b3, fun o ho => a4 o (b4 o ho)⟩

/-- From one version to the next, without restore or overwrite, an id that stays denotes the same
fragment: deletions are only added. -/
theorem carry {H : Hist} (hv : Valid H) (hcl : H.Clean) {v : Nat} {e p : Entry} (h1 : 1 ≤ v)
    (he : H.look (v + 1) = some e) (hp : H.look v = some p)
    (hres : ∀ w, e.job.tx.op ≠ .restore w) (hover : ∀ a b d, e.job.tx.op ≠ .overwrite a b d)
    {f g : Frag} (hf : f ∈ p.m.frags) (hg : g ∈ e.m.frags) (hid : g.id = f.id) : f.Later g := by
  obtain ⟨hok, hfr⟩ := all_ok hv hcl
  have hst := valid_step hv h1 he hp
  obtain ⟨rd, hatt, _⟩ := hst.att
  obtain ⟨b, hb, hprep⟩ := hst.prep
  have hbl : Built (some p.m) p.ix _ _ _ := (attempt_build hres hatt).1
  have hvl := (look_le he).2
  by_cases hmg : ∃ a c, e.job.tx.op = .merge a c
  · obtain ⟨a, c, hop⟩ := hmg
    obtain ⟨schema, nr, fs, nr', k1, k2, k3, k4, k5, k6⟩ := hbl.arms
    rw [hop] at k3
    simp only [opArms, Except.ok.injEq, Prod.mk.injEq] at k3
    rw [← k3.1] at k4
    have hchk := checked_ops hv hcl h1 he hp (by rw [hop]; intro x y z h; cases h)
      (by rw [hop]; intro x y z w h; cases h)
    rw [hop] at hchk
    have hsame := merge_stable hv (look_le hb).1 hst.rle (look_le hp).2 hchk hb hp
    unfold Prepared at hprep
    rw [hop] at hprep
    have hprep' : a.map Frag.rows = p.m.frags.map Frag.rows := by rw [hsame]; exact hprep
    rw [k4, mem_sortBy] at hg
    have : g.rows ∈ a.map Frag.rows := List.mem_map_of_mem hg
    rw [hprep'] at this
    obtain ⟨f', hf', hr⟩ := List.mem_map.1 this
    have hid' : f'.id = g.id := by have := congrArg Frag.id hr; exact this
    have : f' = f := nodup_ids_eq (hok v p hp).nodup hf' hf (hid'.trans hid)
    subst this
    exact later_of_rows hr.symm
  · have hfo := freshOp_of hfr (by omega) h1 he hp hprep
    by_cases hmod : f.id ∈ e.job.tx.op.modifiedIds
    · obtain ⟨schema, nr, fs, nr', k1, k2, k3, k4, k5, k6⟩ := hbl.arms
      cases hop : e.job.tx.op with
      | delete ups del pr =>
        have hm : e.job.tx.op.Modifies := by rw [hop]; trivial
        rw [hop] at k3
        simp only [opArms, Option.map_some, Except.ok.injEq, Prod.mk.injEq] at k3
        rw [k4, mem_sortBy, ← k3.1] at hg
        obtain ⟨f', hf', hgf⟩ := List.mem_map.1 hg
        obtain ⟨c1, c2, c3⟩ := applyUpdated_cases ups f'
        have hff : f' = f := nodup_ids_eq (hok v p hp).nodup (List.mem_filter.1 hf').1 hf (by rw [← c1, hgf, hid])
        subst hff
        rw [hgf] at c2
        rcases c2 with c2 | c2
        · rw [c2]; exact Frag.Later.refl _
        · have hp' := hprep
          unfold Prepared at hp'
          rw [hop] at hp'
          exact updated_later hv hcl h1 he hp hm hb (hp'.1 g c2) (by rw [hid]; exact hmod) hf hid
      | update rem ups new =>
        have hm : e.job.tx.op.Modifies := by rw [hop]; trivial
        have hp' := hprep
        unfold Prepared at hp'
        rw [hop] at hp' k3
        simp only [opArms, Option.map_some] at k3
        split at k3
        · cases k3
        · rename_i r nr1 ha
          simp only [Except.ok.injEq, Prod.mk.injEq] at k3
          rw [k4, mem_sortBy, ← k3.1, List.mem_append] at hg
          rcases hg with hg | hg
          · obtain ⟨f', hf', hgf⟩ := List.mem_map.1 hg
            obtain ⟨c1, c2, c3⟩ := applyFirstUpdated_cases ups f'
            have hff : f' = f := nodup_ids_eq (hok v p hp).nodup (List.mem_filter.1 hf').1 hf (by rw [← c1, hgf, hid])
            subst hff
            rw [hgf] at c2
            rcases c2 with c2 | c2
            · rw [c2]; exact Frag.Later.refl _
            · exact updated_later hv hcl h1 he hp hm hb (hp'.1 g c2) (by rw [hid]; exact hmod) hf hid
          · have hids : ids r = List.range' (firstFragId (.update rem ups new) (some p.m)) new.length := by
              rw [(assignIf_ok ha).1, (withIds_zero (fun f hf => (hp'.2.2 f hf).1) _).1]
            have hgi := mem_ids_of hg
            rw [hids, List.mem_range'_1] at hgi
            have := firstFragId_gt (op := .update rem ups new) (by intro a b c h; cases h) (hok v p hp).le hf
            omega
      | rewrite gs r =>
        have hperm := rewrite_built hbl (hok v p hp) hop hfo
        rw [hperm.mem_iff, List.mem_append] at hg
        rcases hg with hg | hg
        · have := (List.mem_filter.1 hg).2
          rw [Bool.not_eq_true', List.contains_eq_mem, decide_eq_false_iff_not, hid] at this
          rw [hop] at hmod
          exact absurd hmod this
        · obtain ⟨gr, hgr, hgn⟩ := List.mem_flatMap.1 hg
          unfold FreshOp at hfo
          rw [hop] at hfo
          exact absurd (by rw [hid]; exact mem_ids_of hf) (hfo.1 gr hgr g hgn).2
      | dataReplacement rs =>
        rw [hop] at k3
        simp only [opArms, Option.map_some] at k3
        split at k3
        · cases k3
        · split at k3
          · cases k3
          · rename_i r ha
            simp only [Except.ok.injEq, Prod.mk.injEq] at k3
            rw [k4, mem_sortBy, ← k3.1, List.mem_append] at hg
            have hex : ∃ g' ∈ p.m.frags, g.rows = g'.rows := by
              rcases hg with hg | hg
              · exact (replaceAll_ok ha).2 g hg
              · exact ⟨g, (List.mem_filter.1 hg).1, rfl⟩
            obtain ⟨g', hg', hr⟩ := hex
            have hid' : g.id = g'.id := by have := congrArg Frag.id hr; exact this
            have : g' = f := nodup_ids_eq (hok v p hp).nodup hg' hf (hid'.symm.trans hid)
            subst this
            exact later_of_rows hr
      | merge a c => exact absurd ⟨a, c, hop⟩ hmg
      | _ => rw [hop] at hmod; simp [Op.modifiedIds] at hmod
    · obtain ⟨g', hg', hr, _⟩ := stays hbl (hok v p hp) hfo hover
        (fun a c h => hmg ⟨a, c, h⟩) hf hmod
      have hid' : g'.id = f.id := by have := congrArg Frag.id hr; exact this
      have : g' = g := nodup_ids_eq (hok _ e he).nodup hg' hg (hid'.trans hid.symm)
      subst this
      exact later_of_rows hr

/-- No restore or overwrite among the versions `a+1 … b`. -/
def Hist.Linear (H : Hist) (a b : Nat) : Prop :=
  ∀ u e, a < u → u ≤ b → H.look u = some e → (∀ w, e.job.tx.op ≠ .restore w) ∧ ∀ x y z, e.job.tx.op ≠ .overwrite x y z

theorem Hist.Linear.mono {H : Hist} {a b c d : Nat} (h : H.Linear a b) (h1 : a ≤ c) (h2 : d ≤ b) : H.Linear c d :=
  fun u e h3 h4 => h u e (by omega) (by omega)

/-- An id that appears in version `v + 1` and not in version `v` is greater than every id that version
`a` or an earlier version since had handed out. -/
theorem new_id_fresh {H : Hist} (hv : Valid H) (hcl : H.Clean) {a v : Nat} {ea e p : Entry} (h1 : 1 ≤ a) (hav : a ≤ v)
    (hea : H.look a = some ea) (he : H.look (v + 1) = some e) (hp : H.look v = some p)
    (hlin : H.Linear a (v + 1)) (hmax : ea.m.maxFrag ≠ 0 ∨ p.m.maxFrag ≠ 0 ∨ p.m.frags ≠ [])
    {i : Nat} (hi : i ∈ ids e.m.frags) (hni : i ∉ ids p.m.frags) : i ∉ ids ea.m.frags := by
  obtain ⟨hok, hfr⟩ := all_ok hv hcl
  have hvl := (look_le he).2
  have hst := valid_step hv (by omega) he hp
  obtain ⟨rd, hatt, _⟩ := hst.att
  obtain ⟨b, hb, hprep⟩ := hst.prep
  obtain ⟨hres, hover⟩ := hlin (v + 1) e (by omega) (Nat.le_refl _) he
  have hbl : Built (some p.m) p.ix _ _ _ := (attempt_build hres hatt).1
  have hno : ∀ u x, a < u → u ≤ v → H.look u = some x → ∀ w, x.job.tx.op ≠ .restore w :=
    fun u x k1 k2 k3 => (hlin u x k1 (by omega) k3).1
  have hmono := mono_segment hv hok hav h1 (look_le hp).2 hno hea hp
  intro hmem
  obtain ⟨f, hf, hfi⟩ := mem_ids.1 hmem
  have hle := (hok a ea hea).le f hf
  by_cases hmg : ∃ x y, e.job.tx.op = .merge x y
  · obtain ⟨x, y, hop⟩ := hmg
    obtain ⟨schema, nr, fs, nr', k1, k2, k3, k4, k5, k6⟩ := hbl.arms
    rw [hop] at k3
    simp only [opArms, Except.ok.injEq, Prod.mk.injEq] at k3
    rw [← k3.1] at k4
    have hchk := checked_ops hv hcl (by omega) he hp (by rw [hop]; intro x y z h; cases h)
      (by rw [hop]; intro x y z w h; cases h)
    rw [hop] at hchk
    have hsame := merge_stable hv (look_le hb).1 hst.rle (look_le hp).2 hchk hb hp
    unfold Prepared at hprep
    rw [hop] at hprep
    have hprep' : x.map Frag.rows = p.m.frags.map Frag.rows := by rw [hsame]; exact hprep
    obtain ⟨g, hg, hgi⟩ := mem_ids.1 hi
    rw [k4, mem_sortBy] at hg
    have : g.rows ∈ x.map Frag.rows := List.mem_map_of_mem hg
    rw [hprep'] at this
    obtain ⟨f', hf', hr⟩ := List.mem_map.1 this
    have hid' : f'.id = g.id := by have := congrArg Frag.id hr; exact this
    exact hni (mem_ids.2 ⟨f', hf', hid'.trans hgi⟩)
  · have hia := ids_after hbl (hok v p hp) hover (fun x y h => hmg ⟨x, y, h⟩)
      (step_new_ids (c := p.m) hprep (fun gs r hop => hfr v e p (by omega) (by omega) he hp gs r hop))
    rcases hia.2 i hi with h | h
    · exact hni h
    · have hpm : p.m.maxFrag ≠ 0 ∨ p.m.frags ≠ [] :=
        hmax.elim (fun h0 => .inl (by omega)) id
      have hfid := firstFragId_ge (op := e.job.tx.op) hover hpm
      cases hop : e.job.tx.op with
      | append fs => rw [hop] at h hfid; simp only at h; omega
      | update x y z => rw [hop] at h hfid; simp only at h; omega
      | rewrite gs r =>
        rw [hop] at h
        obtain ⟨g, hg, hgi⟩ := h
        obtain ⟨nf, hnf, hnfi⟩ := mem_ids.1 hgi
        obtain ⟨w, hw, hwv, hgr⟩ := hst.grant gs r hop g hg nf hnf
        obtain ⟨ew, pw, q1, q2, q3, q4, q5, q6⟩ := granted_bounds hv hok hgr
        unfold Prepared at hprep
        rw [hop] at hprep
        have hread := hprep.2.2.2.2.1 w hw
        -- the reservation came after version `a`, or `a` came after the reservation
        rcases Nat.lt_or_ge a w with haw | haw
        · have := mono_segment hv hok (a := a) (b := w - 1) (by omega) h1 (by have := look_le q1; omega)
            (fun u x k1 k2 k3 => hno u x k1 (by omega) k3) hea q2
          omega
        · rw [← hnfi] at hmem
          exact reserved_fresh hv hcl hok (n := v) (look_le hp).2 hop (fun u x k1 k2 => hst.hex u x k1 k2)
            hprep.2.2.2.2.1 (fun u k1 k2 => hst.chk (clean_at hcl he) u k1 k2) hw hgr
            (fun u e' p' k1 => hfr u e' p' (by omega)) a ea haw hav hea hmem
      | _ => rw [hop] at h; exact h.elim

end Verif.Txn
