import Verif.Txn.Effects
/-!
# Fragment ids along a history
-/
namespace Verif.Txn

/-- Everything known about the commit of version `v + 1` (entry `e`) on top of version `v` (entry `p`),
in terms of the whole history. -/
structure StepInfo (H : Hist) (v : Nat) (e p : Entry) : Prop where
  att : ∃ rd, attempt rd (p.m, p.ix) e.job.tx (v + 1) = .ok (e.m, e.ix) ∧
    ∀ w x, rd w = some x → w ≤ v ∧ ∃ e0, H.look w = some e0 ∧ x = (e0.m, e0.ix)
  prep : ∃ b, H.look e.job.tx.read = some b ∧ Prepared H b.m e.job
  rle : e.job.tx.read ≤ v
  grant : ∀ gs r, e.job.tx.op = .rewrite gs r → ∀ g ∈ gs, ∀ f ∈ g.new, ∃ u ∈ e.job.resv, u ≤ v ∧ Granted H u f.id
  hex : ∀ u x, u ≤ v → H.look u = some x → ∀ i ∈ e.job.resv, i ∉ x.job.resv
  hnw : NoWrap p.m e.job.tx
  chk : e.Clean (v + 1) → ∀ u, e.job.tx.read < u → u ≤ v → ∃ c, noConflict H c e.job.tx u = true

theorem stepInfo_cons {H : Hist} {v : Nat} {e p : Entry} (x : Entry) (hv : v + 1 ≤ H.length)
    (h : StepInfo H v e p) : StepInfo (x :: H) v e p where
  att := by
    obtain ⟨rd, h1, h2⟩ := h.att
    refine ⟨rd, h1, fun w y hy => ?_⟩
    obtain ⟨h3, e0, h4, h5⟩ := h2 w y hy
    exact ⟨h3, e0, look_cons_some x h4, h5⟩
  prep := by
    obtain ⟨b, h1, h2⟩ := h.prep
    exact ⟨b, look_cons_some x h1, prepared_cons x h2⟩
  rle := h.rle
  grant := by
    intro gs r ho g hg f hf
    obtain ⟨u, h1, h2, h3⟩ := h.grant gs r ho g hg f hf
    exact ⟨u, h1, h2, granted_cons x h3⟩
  hex := by
    intro u y hu hy
    rw [look_cons_of_le x (by omega)] at hy
    exact h.hex u y hu hy
  hnw := h.hnw
  chk := by
    intro hc u h1 h2
    obtain ⟨c, h3⟩ := h.chk hc u h1 h2
    exact ⟨c, noConflict_cons x h3⟩

theorem valid_step {H : Hist} (hv : Valid H) {v : Nat} {e p : Entry} (h1 : 1 ≤ v)
    (he : H.look (v + 1) = some e) (hp : H.look v = some p) : StepInfo H v e p := by
  induction hv with
  | nil => simp [Hist.look] at he
  | first j m ix fs sch up hop hr hread hprep hatt =>
    have := (look_le he).2
    simp only [List.length_cons, List.length_nil] at this; omega
  | next x q h b hval hlook hprep hex hnw hatt hchk ih =>
    by_cases ht : v + 1 = h.length + 2
    · have hvl : v = h.length + 1 := by omega
      subst hvl
      rw [show h.length + 1 + 1 = (q :: h).length + 1 from rfl, look_top] at he
      rw [look_cons_of_le x (show h.length + 1 ≤ (q :: h).length from Nat.le_refl _), look_top] at hp
      cases he; cases hp
      refine ⟨?_, ⟨b, look_cons_some e hlook, prepared_cons e hprep⟩, ?_, ?_, ?_, hnw, ?_⟩
      · refine ⟨_, hatt, fun w y hy => ?_⟩
        unfold Hist.read at hy
        split at hy
        · cases hy
        · cases hl : Hist.look (p :: h) w with
          | none => rw [hl] at hy; cases hy
          | some e0 =>
            rw [hl] at hy
            simp only [Option.map_some, Option.some.injEq] at hy
            exact ⟨(look_le hl).2, e0, look_cons_some e hl, hy.symm⟩
      · exact (look_le hlook).2
      · intro gs r ho g hg f hf
        unfold Prepared at hprep
        rw [ho] at hprep
        obtain ⟨u, h2, h3⟩ := hprep.2.2.2.1 g hg f hf
        obtain ⟨e2, n2, h4, h5⟩ := h3
        exact ⟨u, h2, (look_le h4).2, e2, n2, look_cons_some e h4, h5⟩
      · intro u y hu hy
        rw [look_cons_of_le e (show u ≤ (p :: h).length from hu)] at hy
        exact hex y (look_mem hy)
      · intro hc u h2 h3
        obtain ⟨c, h4⟩ := hchk hc u h2 h3
        exact ⟨c, noConflict_cons e h4⟩
    · have hle := (look_le he).2
      simp only [List.length_cons] at hle
      rw [look_cons_of_le x (by simp only [List.length_cons]; omega)] at he hp
      exact stepInfo_cons x (by simp only [List.length_cons]; omega) (ih he hp)

theorem valid_first {H : Hist} (hv : Valid H) {e : Entry} (he : H.look 1 = some e) :
    (∃ fs sch up, e.job.tx.op = .overwrite fs sch up ∧ ∀ f ∈ fs, NewFrag f) ∧ e.job.tx.read = 0 ∧
      e.job.resv = [] ∧ attemptNew e.job.tx = .ok (e.m, e.ix) := by
  induction hv with
  | nil => simp [Hist.look] at he
  | first j m ix fs sch up hop hr hread hprep hatt =>
    simp [Hist.look] at he
    subst he
    exact ⟨⟨fs, sch, up, hop, hprep⟩, hread, hr, hatt⟩
  | next x q h b hval hlook hprep hex hnw hatt hchk ih =>
    rw [look_cons_of_le x (by simp only [List.length_cons]; omega)] at he
    exact ih he

theorem clean_at {H : Hist} (hc : H.Clean) {v : Nat} {e : Entry} (he : H.look v = some e) : e.Clean v := by
  induction H with
  | nil => simp [Hist.look] at he
  | cons x h ih =>
    unfold Hist.look at he
    split at he
    · cases he; rename_i hv; subst hv; exact hc.1
    · exact ih hc.2 he

theorem valid_tail {x : Entry} {H : Hist} (hv : Valid (x :: H)) : Valid H := by
  cases hv with
  | first => exact Valid.nil
  | next _ _ _ _ h => exact h

/-- Conflicts seen through the stored form are the same for writers that change fragments. -/
theorem stored_modifiedIds (o : Op) : o.stored.modifiedIds = o.modifiedIds := by
  cases o with
  | rewrite gs r => cases gs <;> rfl
  | _ => rfl

theorem conflicts_stored {a o : Op} (h1 : ∀ x y z, a ≠ .overwrite x y z)
    (h2 : ∀ x y z w, a ≠ .updateConfig x y z w) : a.conflicts o.stored = a.conflicts o := by
  cases a with
  | overwrite x y z => exact absurd rfl (h1 x y z)
  | updateConfig x y z w => exact absurd rfl (h2 x y z w)
  | _ =>
    cases o with
    | rewrite gs r => cases gs <;> rfl
    | _ => rfl

theorem noConflict_iff {H : Hist} {c : Nat → Bool} {tx : Tx} {u : Nat} {o : Entry}
    (h1 : ∀ x y z, tx.op ≠ .overwrite x y z) (h2 : ∀ x y z w, tx.op ≠ .updateConfig x y z w)
    (hl : H.look u = some o) (h : noConflict H c tx u = true) : tx.op.conflicts o.job.tx.op = false := by
  unfold noConflict Hist.opAt at h
  rw [hl] at h
  simp only [Option.map_some, Bool.not_eq_true'] at h
  split at h
  · exact h
  · rw [conflicts_stored h1 h2] at h; exact h

/-! ## Unique ids and the high-water mark -/

structure MOk (m : Manifest) : Prop where
  nodup : (ids m.frags).Nodup
  le : ∀ f ∈ m.frags, f.id ≤ m.maxFrag

theorem built_le {cur : Option Manifest} {ix0 : List Idx} {tx : Tx} {m : Manifest} {ix : List Idx}
    (hb : Built cur ix0 tx m ix) : ∀ f ∈ m.frags, f.id ≤ m.maxFrag := by
  intro f hf
  have := le_maxId hf
  rw [hb.maxf]; omega

theorem reserve_built {c : Manifest} {ix0 : List Idx} {tx : Tx} {m : Manifest} {ix : List Idx} {n : Nat}
    (hb : Built (some c) ix0 tx m ix) (hop : tx.op = .reserve n) (hnw : NoWrap c tx) (hc : MOk c) :
    (∀ f, f ∈ m.frags ↔ f ∈ c.frags) ∧ m.maxFrag = c.maxFrag + n := by
  obtain ⟨schema, nr, fs, nr', h1, h2, h3, h4, h5, h6⟩ := hb.arms
  rw [hop] at h3
  simp only [opArms, Option.map_some, Except.ok.injEq, Prod.mk.injEq] at h3
  obtain ⟨h3, _⟩ := h3
  have hm : ∀ f, f ∈ m.frags ↔ f ∈ c.frags := by
    intro f; rw [h4, mem_sortBy, h3]
  refine ⟨hm, ?_⟩
  have hmx : maxId m.frags ≤ c.maxFrag := maxId_le (fun f hf => hc.le f ((hm f).1 hf))
  have hw : c.maxFrag + n < U32 := by unfold NoWrap at hnw; rw [hop] at hnw; exact hnw
  rw [hb.maxf, hop]
  simp only [Option.map_some, Option.getD_some, maxAfter]
  rw [Nat.max_eq_left hmx, Nat.mod_eq_of_lt hw]
  omega

theorem built_mono {c : Manifest} {ix0 : List Idx} {tx : Tx} {m : Manifest} {ix : List Idx}
    (hb : Built (some c) ix0 tx m ix) (hnw : NoWrap c tx) (hc : MOk c) : c.maxFrag ≤ m.maxFrag := by
  cases hop : tx.op with
  | reserve n => have := (reserve_built hb hop hnw hc).2; omega
  | _ =>
    rw [hb.maxf, hop]
    simp only [Option.map_some, Option.getD_some, maxAfter]
    omega

theorem nodup_range' (a n : Nat) : (List.range' a n).Nodup := List.nodup_range'

theorem new_ids_nodup {existing new : List Frag} {n k : Nat} (he : (ids existing).Nodup)
    (hlt : ∀ f ∈ existing, f.id < n) (hn : ids new = List.range' n k) : (ids (existing ++ new)).Nodup := by
  rw [ids_append, hn, List.nodup_append]
  refine ⟨he, nodup_range' _ _, ?_⟩
  intro a ha b hb hab
  obtain ⟨f, hf, e⟩ := mem_ids.1 ha
  have := hlt f hf
  rw [List.mem_range'_1] at hb
  omega

/-- The ids after each operation: old ids that stay, and new ids that are fresh. -/
theorem ids_after {c : Manifest} {ix0 : List Idx} {tx : Tx} {m : Manifest} {ix : List Idx}
    (hb : Built (some c) ix0 tx m ix) (hc : MOk c)
    (hover : ∀ a b d, tx.op ≠ .overwrite a b d) (hmerge : ∀ a b, tx.op ≠ .merge a b)
    (hnew : match tx.op with
      | .append fs => ∀ f ∈ fs, f.id = 0
      | .update _ _ fs => ∀ f ∈ fs, f.id = 0
      | .dataReplacement rs => (rs.map (·.1)).Nodup
      | .rewrite gs _ => (∀ g ∈ gs, ∀ f ∈ g.new, f.id ≠ 0 ∧ f.id ∉ ids c.frags) ∧
          (gs.flatMap (fun g => ids g.new)).Nodup ∧ (∀ g ∈ gs, ∀ f ∈ g.new, ∀ g' ∈ gs, f.id ∉ ids g'.old)
      | _ => True) :
    (ids m.frags).Nodup ∧ ∀ i ∈ ids m.frags, i ∈ ids c.frags ∨
      match tx.op with
      | .append _ | .update _ _ _ => firstFragId tx.op (some c) ≤ i
      | .rewrite gs _ => ∃ g ∈ gs, i ∈ ids g.new
      | _ => False := by
  obtain ⟨schema, nr, fs, nr', h1, h2, h3, h4, h5, h6⟩ := hb.arms
  have hperm : (ids m.frags).Perm (ids fs) := by rw [h4]; exact ids_perm (sortBy_perm Frag.id fs)
  rw [hperm.nodup_iff]
  have hmi : ∀ i, i ∈ ids m.frags ↔ i ∈ ids fs := fun i => hperm.mem_iff
  simp only [hmi]
  have hgt := fun f (hf : f ∈ c.frags) => firstFragId_gt hover hc.le hf
  cases hop : tx.op with
  | overwrite a b d => exact absurd hop (hover a b d)
  | merge a b => exact absurd hop (hmerge a b)
  | append new =>
    rw [hop] at h3 hnew hgt
    simp only [opArms, Option.map_some] at h3
    split at h3
    · cases h3
    · rename_i r nr1 ha
      simp only [Except.ok.injEq, Prod.mk.injEq] at h3
      obtain ⟨h3, _⟩ := h3
      subst h3
      have hids : ids r = List.range' (firstFragId (.append new) (some c)) new.length := by
        rw [(assignIf_ok ha).1, (withIds_zero hnew _).1]
      refine ⟨new_ids_nodup hc.nodup hgt hids, ?_⟩
      intro i hi
      rw [ids_append, List.mem_append, hids, List.mem_range'_1] at hi
      rcases hi with hi | hi
      · exact Or.inl hi
      · exact Or.inr hi.1
  | delete ups del pr =>
    rw [hop] at h3
    simp only [opArms, Option.map_some, Except.ok.injEq, Prod.mk.injEq] at h3
    obtain ⟨h3, _⟩ := h3
    subst h3
    rw [map_ids_eq (fun f => (applyUpdated_cases ups f).1)]
    refine ⟨nodup_ids_filter _ hc.nodup, ?_⟩
    intro i hi
    obtain ⟨f, hf, e⟩ := mem_ids.1 hi
    exact Or.inl (mem_ids.2 ⟨f, (List.mem_filter.1 hf).1, e⟩)
  | update rem ups new =>
    rw [hop] at h3 hnew hgt
    simp only [opArms, Option.map_some] at h3
    split at h3
    · cases h3
    · rename_i r nr1 ha
      simp only [Except.ok.injEq, Prod.mk.injEq] at h3
      obtain ⟨h3, _⟩ := h3
      subst h3
      have hids : ids r = List.range' (firstFragId (.update rem ups new) (some c)) new.length := by
        rw [(assignIf_ok ha).1, (withIds_zero hnew _).1]
      refine ⟨new_ids_nodup ?_ ?_ hids, ?_⟩
      · rw [map_ids_eq (fun f => (applyFirstUpdated_cases ups f).1)]
        exact nodup_ids_filter _ hc.nodup
      · intro f hf
        obtain ⟨g, hg, e⟩ := List.mem_map.1 hf
        rw [← e, (applyFirstUpdated_cases ups g).1]
        exact hgt g (List.mem_filter.1 hg).1
      · intro i hi
        rw [ids_append, List.mem_append, hids, List.mem_range'_1,
          map_ids_eq (fun f => (applyFirstUpdated_cases ups f).1)] at hi
        rcases hi with hi | hi
        · obtain ⟨f, hf, e⟩ := mem_ids.1 hi
          exact Or.inl (mem_ids.2 ⟨f, (List.mem_filter.1 hf).1, e⟩)
        · exact Or.inr hi.1
  | rewrite gs rew =>
    rw [hop] at h3 hnew
    obtain ⟨hn1, hn2, hn3⟩ := hnew
    simp only [opArms, Option.map_some] at h3
    split at h3
    · cases h3
    · rename_i r n1 ha
      have hfs : fs = r := by
        cases nr with
        | none =>
          simp only at h3
          split at h3
          · cases h3
          · simp only [Except.ok.injEq, Prod.mk.injEq] at h3; exact h3.1.symm
        | some k =>
          simp only at h3
          split at h3
          · cases h3
          · simp only [Except.ok.injEq, Prod.mk.injEq] at h3; exact h3.1.symm
      subst hfs
      obtain ⟨hp, hnd⟩ := rewriteFrags_perm hc.nodup (fun g hg f hf => (hn1 g hg f hf).1) hn2
        (fun g hg f hf => (hn1 g hg f hf).2) hn3 ha
      refine ⟨hnd, ?_⟩
      intro i hi
      rw [(ids_perm hp).mem_iff, ids_append, List.mem_append] at hi
      rcases hi with hi | hi
      · obtain ⟨f, hf, e⟩ := mem_ids.1 hi
        exact Or.inl (mem_ids.2 ⟨f, (List.mem_filter.1 hf).1, e⟩)
      · obtain ⟨f, hf, e⟩ := mem_ids.1 hi
        obtain ⟨g, hg, hf'⟩ := List.mem_flatMap.1 hf
        exact Or.inr ⟨g, hg, mem_ids.2 ⟨f, hf', e⟩⟩
  | createIndex a b =>
    rw [hop] at h3
    simp only [opArms, Option.map_some, Except.ok.injEq, Prod.mk.injEq] at h3
    obtain ⟨h3, _⟩ := h3
    subst h3
    exact ⟨hc.nodup, fun i hi => Or.inl hi⟩
  | reserve n =>
    rw [hop] at h3
    simp only [opArms, Option.map_some, Except.ok.injEq, Prod.mk.injEq] at h3
    obtain ⟨h3, _⟩ := h3
    subst h3
    exact ⟨hc.nodup, fun i hi => Or.inl hi⟩
  | updateConfig a b d e =>
    rw [hop] at h3
    simp only [opArms, Option.map_some, Except.ok.injEq, Prod.mk.injEq] at h3
    obtain ⟨h3, _⟩ := h3
    subst h3
    exact ⟨hc.nodup, fun i hi => Or.inl hi⟩
  | project s =>
    rw [hop] at h3
    simp only [opArms, Option.map_some, Except.ok.injEq, Prod.mk.injEq] at h3
    obtain ⟨h3, _⟩ := h3
    subst h3
    rw [map_ids_eq (g := projectFrag schema) (fun f => rfl)]
    exact ⟨hc.nodup, fun i hi => Or.inl hi⟩
  | restore v => rw [hop] at h3; cases h3
  | dataReplacement rs =>
    rw [hop] at h3 hnew
    simp only [opArms, Option.map_some] at h3
    split at h3
    · cases h3
    · split at h3
      · cases h3
      · rename_i r ha
        simp only [Except.ok.injEq, Prod.mk.injEq] at h3
        obtain ⟨h3, _⟩ := h3
        subst h3
        obtain ⟨hi1, hi2⟩ := replaceAll_ok ha
        refine ⟨?_, ?_⟩
        · rw [ids_append, List.nodup_append]
          refine ⟨by rw [hi1]; exact hnew, nodup_ids_filter _ hc.nodup, ?_⟩
          intro a ha' b hb' hab
          subst hab
          obtain ⟨f, hf, e⟩ := mem_ids.1 hb'
          have := (List.mem_filter.1 hf).2
          rw [hi1] at ha'
          rw [e] at this
          rw [Bool.not_eq_true', List.contains_eq_mem, decide_eq_false_iff_not] at this
          exact this ha'
        · intro i hi
          rw [ids_append, List.mem_append] at hi
          rcases hi with hi | hi
          · obtain ⟨f, hf, e⟩ := mem_ids.1 hi
            obtain ⟨g, hg, hr⟩ := hi2 f hf
            have hid : f.id = g.id := by have := congrArg Frag.id hr; exact this
            exact Or.inl (mem_ids.2 ⟨g, hg, by rw [← hid]; exact e⟩)
          · obtain ⟨f, hf, e⟩ := mem_ids.1 hi
            exact Or.inl (mem_ids.2 ⟨f, (List.mem_filter.1 hf).1, e⟩)

/-- Operations that a rewrite does not conflict with. -/
theorem rewrite_compatible {gs : List Group} {r : List (Nat × Nat)} {o : Op}
    (h : (Op.rewrite gs r).conflicts o = false) :
    (∀ v, o ≠ .restore v) ∧ (∀ a b c, o ≠ .overwrite a b c) ∧ (∀ a b, o ≠ .merge a b) ∧
      (∀ a, o ≠ .dataReplacement a) := by
  cases o <;> simp_all [Op.conflicts]

theorem mono_segment {H : Hist} (hv : Valid H)
    (hok : ∀ v e, H.look v = some e → MOk e.m) {a b : Nat} (hab : a ≤ b) (h1 : 1 ≤ a) (hb : b ≤ H.length)
    (hno : ∀ u e, a < u → u ≤ b → H.look u = some e → ∀ w, e.job.tx.op ≠ .restore w)
    {ea eb : Entry} (hea : H.look a = some ea) (heb : H.look b = some eb) : ea.m.maxFrag ≤ eb.m.maxFrag := by
  induction b generalizing eb with
  | zero => omega
  | succ b ih =>
    by_cases hc : a = b + 1
    · subst hc; rw [hea] at heb; cases heb; exact Nat.le_refl _
    · obtain ⟨p, hp⟩ := look_exists (h := H) (v := b) (by omega) (by omega)
      have hst := valid_step hv (by omega) heb hp
      have := ih (by omega) (by omega) (fun u e h2 h3 => hno u e h2 (by omega)) hp
      obtain ⟨rd, hatt, _⟩ := hst.att
      have hbl : Built (some p.m) p.ix _ _ _ := (attempt_build (hno (b + 1) eb (by omega) (Nat.le_refl _) heb) hatt).1
      have := built_mono hbl hst.hnw (hok b p hp)
      omega

theorem granted_bounds {H : Hist} (hv : Valid H) (hok : ∀ v e, H.look v = some e → MOk e.m)
    {v i : Nat} (hg : Granted H v i) :
    ∃ e p, H.look v = some e ∧ H.look (v - 1) = some p ∧ 2 ≤ v ∧ p.m.maxFrag < i ∧ i ≤ e.m.maxFrag ∧
      (∀ f, f ∈ e.m.frags ↔ f ∈ p.m.frags) := by
  obtain ⟨e, n, hl, hop, h1, h2⟩ := hg
  have hle := look_le hl
  have hv2 : 2 ≤ v := by
    rcases Nat.lt_or_ge v 2 with h | h
    · have : v = 1 := by omega
      subst this
      obtain ⟨⟨fs, sch, up, ho, _⟩, _⟩ := valid_first hv hl
      rw [hop] at ho; cases ho
    · exact h
  obtain ⟨p, hp⟩ := look_exists (h := H) (v := v - 1) (by omega) (by omega)
  have hst := valid_step hv (v := v - 1) (by omega) (by rw [Nat.sub_add_cancel (by omega)]; exact hl) hp
  obtain ⟨rd, hatt, _⟩ := hst.att
  have hbl : Built (some p.m) p.ix _ _ _ := (attempt_build (by intro w; rw [hop]; intro h; cases h) hatt).1
  obtain ⟨h3, h4⟩ := reserve_built hbl hop hst.hnw (hok _ p hp)
  exact ⟨e, p, hl, hp, hv2, by omega, by omega, h3⟩

/-- What `ids_after` needs for a step whose rewritten ids are known to be fresh. -/
theorem step_new_ids {H : Hist} {c : Manifest} {b : Manifest} {j : Job} (hp : Prepared H b j)
    (hfresh : ∀ gs r, j.tx.op = .rewrite gs r → (∀ g ∈ gs, ∀ f ∈ g.new, f.id ≠ 0 ∧ f.id ∉ ids c.frags) ∧
      (∀ g ∈ gs, ∀ f ∈ g.new, ∀ g' ∈ gs, f.id ∉ ids g'.old)) :
    match j.tx.op with
      | .append fs => ∀ f ∈ fs, f.id = 0
      | .update _ _ fs => ∀ f ∈ fs, f.id = 0
      | .dataReplacement rs => (rs.map (·.1)).Nodup
      | .rewrite gs _ => (∀ g ∈ gs, ∀ f ∈ g.new, f.id ≠ 0 ∧ f.id ∉ ids c.frags) ∧
          (gs.flatMap (fun g => ids g.new)).Nodup ∧ (∀ g ∈ gs, ∀ f ∈ g.new, ∀ g' ∈ gs, f.id ∉ ids g'.old)
      | _ => True := by
  unfold Prepared at hp
  cases hop : j.tx.op with
  | append fs => rw [hop] at hp; exact fun f hf => (hp f hf).1
  | update rem ups new => rw [hop] at hp; exact fun f hf => (hp.2.2 f hf).1
  | dataReplacement rs => rw [hop] at hp; exact hp
  | rewrite gs r =>
    rw [hop] at hp
    exact ⟨(hfresh gs r hop).1, hp.2.2.1, (hfresh gs r hop).2⟩
  | _ => trivial

/-- Reserved fragment ids do not appear in any version from the reservation to the commit of the
rewrite that made it. -/
theorem reserved_fresh {H : Hist} (hv : Valid H) (hcl : H.Clean)
    (hok : ∀ v e, H.look v = some e → MOk e.m)
    {n : Nat} (hn : n ≤ H.length) {j : Job} {gs : List Group} {r : List (Nat × Nat)} (hop : j.tx.op = .rewrite gs r)
    (hex : ∀ u x, u ≤ n → H.look u = some x → ∀ i ∈ j.resv, i ∉ x.job.resv)
    (hres : ∀ v ∈ j.resv, j.tx.read < v)
    (hchk : ∀ u, j.tx.read < u → u ≤ n → ∃ c, noConflict H c j.tx u = true)
    {v i : Nat} (hvr : v ∈ j.resv) (hg : Granted H v i)
    -- each version in between that is a rewrite used fresh ids
    (hfr : ∀ u e p, u < n → 1 ≤ u → H.look (u + 1) = some e → H.look u = some p → ∀ gs' r', e.job.tx.op = .rewrite gs' r' →
      (∀ g ∈ gs', ∀ f ∈ g.new, f.id ≠ 0 ∧ f.id ∉ ids p.m.frags) ∧
      (∀ g ∈ gs', ∀ f ∈ g.new, ∀ g' ∈ gs', f.id ∉ ids g'.old)) :
    ∀ u e, v ≤ u → u ≤ n → H.look u = some e → i ∉ ids e.m.frags := by
  have hro : ∀ x y z, j.tx.op ≠ .overwrite x y z := by intro x y z; rw [hop]; intro h; cases h
  have hru : ∀ x y z w, j.tx.op ≠ .updateConfig x y z w := by intro x y z w; rw [hop]; intro h; cases h
  have hcompat : ∀ u e, j.tx.read < u → u ≤ n → H.look u = some e →
      (Op.rewrite gs r).conflicts e.job.tx.op = false := by
    intro u e h1 h2 h3
    obtain ⟨c, hc⟩ := hchk u h1 h2
    have := noConflict_iff hro hru h3 hc
    rw [hop] at this; exact this
  obtain ⟨ev, pv, hlv, hlp, hv2, hlo, hhi, hsame⟩ := granted_bounds hv hok hg
  have hrv := hres v hvr
  intro u e huv hun hl
  induction u generalizing e with
  | zero => omega
  | succ u ih =>
    by_cases hc : v = u + 1
    · subst hc
      rw [hlv] at hl; cases hl
      intro hm
      obtain ⟨f, hf, e1⟩ := mem_ids.1 hm
      have := (hok _ pv hlp).le f ((hsame f).1 hf)
      omega
    · obtain ⟨p, hp⟩ := look_exists (h := H) (v := u) (by omega) (by omega)
      have ihp := ih p (by omega) (by omega) hp
      have hst := valid_step hv (by omega) hl hp
      obtain ⟨rd, hatt, _⟩ := hst.att
      obtain ⟨c1, c2, c3, c4⟩ := rewrite_compatible (hcompat (u + 1) e (by omega) hun hl)
      have hbl : Built (some p.m) p.ix _ _ _ := (attempt_build c1 hatt).1
      obtain ⟨b, hb, hprep⟩ := hst.prep
      have hok_p := hok u p hp
      have hvm : ev.m.maxFrag ≤ p.m.maxFrag :=
        mono_segment hv hok (a := v) (b := u) (by omega) (by omega) (by omega)
          (fun w x h1 h2 h3 => (rewrite_compatible (hcompat w x (by omega) (by omega) h3)).1) hlv hp
      have hia := ids_after hbl hok_p c2 c3 (step_new_ids hprep (hfr u e p (by omega) (by omega) hl hp))
      intro hm
      rcases hia.2 i hm with h | h
      · exact ihp h
      · have hmx : p.m.maxFrag ≠ 0 := by omega
        cases ho : e.job.tx.op with
        | append fs =>
          rw [ho] at h
          simp only at h
          rw [firstFragId_gt_max (by intro a b c; intro h; cases h) hmx] at h; omega
        | update a b fs =>
          rw [ho] at h
          simp only at h
          rw [firstFragId_gt_max (by intro a b c; intro h; cases h) hmx] at h; omega
        | rewrite gs' r' =>
          rw [ho] at h
          simp only at h
          obtain ⟨g, hg', hi⟩ := h
          obtain ⟨f, hf, e1⟩ := mem_ids.1 hi
          unfold Prepared at hprep
          rw [ho] at hprep
          obtain ⟨v', hv', hle', hgr⟩ := hst.grant gs' r' ho g hg' f hf
          have hr' := hprep.2.2.2.2.1 v' hv'
          rw [e1] at hgr
          obtain ⟨ev', pv', hlv', hlp', hv2', hlo', hhi', _⟩ := granted_bounds hv hok hgr
          have hne : v' ≠ v := by
            intro heq; subst heq
            exact hex (u + 1) e hun hl v' hvr hv'
          have hcl' := hst.chk (clean_at hcl hl)
          have hro' : ∀ x y z, e.job.tx.op ≠ .overwrite x y z := by intro x y z; rw [ho]; intro h; cases h
          have hru' : ∀ x y z w, e.job.tx.op ≠ .updateConfig x y z w := by intro x y z w; rw [ho]; intro h; cases h
          rcases Nat.lt_or_ge v' v with hlt | hge
          · -- the other reservation is older: its ids are below the mark before ours
            have := mono_segment hv hok (a := v') (b := v - 1) (by omega) (by omega) (by omega)
              (fun w x h1 h2 h3 => by
                obtain ⟨c, hc'⟩ := hcl' w (by omega) (by omega)
                have := noConflict_iff hro' hru' h3 hc'
                rw [ho] at this
                exact (rewrite_compatible this).1) hlv' hlp
            omega
          · -- the other reservation is newer: it lies above ours
            have := mono_segment hv hok (a := v) (b := v' - 1) (by omega) (by omega) (by omega)
              (fun w x h1 h2 h3 => (rewrite_compatible (hcompat w x (by omega) (by omega) h3)).1) hlv hlp'
            omega
        | _ => rw [ho] at h; exact h

/-- Ids of a manifest written by an `Overwrite`. -/
theorem overwrite_ids {cur : Option Manifest} {ix0 : List Idx} {tx : Tx} {m : Manifest} {ix : List Idx}
    {fs : List Frag} {sch : Schema} {up : Option Cfg} (hb : Built cur ix0 tx m ix)
    (hop : tx.op = .overwrite fs sch up) (hz : ∀ f ∈ fs, f.id = 0) :
    (ids m.frags).Perm (List.range' 0 fs.length) := by
  obtain ⟨schema, nr, fs', nr', h1, h2, h3, h4, h5, h6⟩ := hb.arms
  rw [hop] at h3
  simp only [opArms] at h3
  split at h3
  · cases h3
  · rename_i r nr1 ha
    simp only [Except.ok.injEq, Prod.mk.injEq] at h3
    obtain ⟨h3, _⟩ := h3
    subst h3
    rw [h4]
    refine (ids_perm (sortBy_perm _ _)).trans ?_
    rw [(assignIf_ok ha).1, (withIds_zero hz _).1]
    exact List.Perm.refl _

theorem rows_id (f : Frag) : f.rows.id = f.id := rfl

theorem ids_of_rows {a b : List Frag} (h : a.map Frag.rows = b.map Frag.rows) : ids a = ids b := by
  have := congrArg (List.map Frag.id) h
  rw [List.map_map, List.map_map] at this
  exact this

theorem merge_frags {c : Manifest} {ix0 : List Idx} {tx : Tx} {m : Manifest} {ix : List Idx}
    {fs : List Frag} {sch : Schema} (hb : Built (some c) ix0 tx m ix) (hop : tx.op = .merge fs sch) :
    m.frags = sortBy Frag.id fs := by
  obtain ⟨schema, nr, fs', nr', h1, h2, h3, h4, h5, h6⟩ := hb.arms
  rw [hop] at h3
  simp only [opArms, Except.ok.injEq, Prod.mk.injEq] at h3
  rw [h4, h3.1]

/-- Ids of the fragments a rewrite adds are fresh. -/
def FreshRewrites (H : Hist) (n : Nat) : Prop :=
  ∀ u e p, u < n → 1 ≤ u → H.look (u + 1) = some e → H.look u = some p → ∀ gs r, e.job.tx.op = .rewrite gs r →
      (∀ g ∈ gs, ∀ f ∈ g.new, f.id ≠ 0 ∧ f.id ∉ ids p.m.frags) ∧
      (∀ g ∈ gs, ∀ f ∈ g.new, ∀ g' ∈ gs, f.id ∉ ids g'.old)

theorem all_ok {H : Hist} (hv : Valid H) (hcl : H.Clean) :
    (∀ v e, H.look v = some e → MOk e.m) ∧ FreshRewrites H H.length := by
  induction hv with
  | nil =>
    refine ⟨fun v e h => by simp [Hist.look] at h, ?_⟩
    intro u e p hu; simp at hu
  | first j m ix fs sch up hop hr hread hprep hatt =>
    refine ⟨?_, ?_⟩
    · intro v e h
      simp only [Hist.look] at h
      split at h
      · cases h
        have hb := attemptNew_build hatt
        refine ⟨?_, built_le hb⟩
        rw [(overwrite_ids hb hop (fun f hf => (hprep f hf).1)).nodup_iff]
        exact nodup_range' _ _
      · cases h
    · intro u e p hu h1; simp at hu; omega
  | next x q h b hval hlook hprep hex hnw hatt hchk ih =>
    obtain ⟨ih1, ih2⟩ := ih hcl.2
    have hxc := hcl.1
    have hq : MOk q.m := ih1 _ _ (look_top q h)
    -- ids of a rewrite at the top are fresh
    have hfresh : ∀ gs r, x.job.tx.op = .rewrite gs r →
        (∀ g ∈ gs, ∀ f ∈ g.new, f.id ≠ 0 ∧ f.id ∉ ids q.m.frags) ∧
        (∀ g ∈ gs, ∀ f ∈ g.new, ∀ g' ∈ gs, f.id ∉ ids g'.old) := by
      intro gs r hop
      have hprep' := hprep
      unfold Prepared at hprep'
      rw [hop] at hprep'
      obtain ⟨p1, p2, p3, p4, p5, _⟩ := hprep'
      have hro : ∀ x' y z, x.job.tx.op ≠ .overwrite x' y z := by intro x' y z; rw [hop]; intro h; cases h
      have hru : ∀ x' y z w, x.job.tx.op ≠ .updateConfig x' y z w := by intro x' y z w; rw [hop]; intro h; cases h
      have hkey : ∀ g ∈ gs, ∀ f ∈ g.new, f.id ∉ ids q.m.frags ∧ b.m.maxFrag < f.id := by
        intro g hg f hf
        obtain ⟨v, hvr, hgr⟩ := p4 g hg f hf
        have hrv := p5 v hvr
        refine ⟨?_, ?_⟩
        · refine reserved_fresh hval hcl.2 ih1 (n := h.length + 1) (Nat.le_refl _) hop
            (fun u y hu hy => hex y (look_mem hy)) p5 (hchk hxc) hvr hgr ?_ (h.length + 1) q ?_ (Nat.le_refl _) (look_top q h)
          · intro u e p hu h1 he hp gs' r' ho
            exact ih2 u e p hu h1 he hp gs' r' ho
          · obtain ⟨e, n, hl, _⟩ := hgr
            exact (look_le hl).2
        · obtain ⟨e, p, hl, hlp, h2, hlo, _, _⟩ := granted_bounds hval ih1 hgr
          have hle := look_le hl
          simp only [List.length_cons] at hle
          have := mono_segment hval ih1 (a := x.job.tx.read) (b := v - 1) (by omega) (look_le hlook).1
            (by simp only [List.length_cons]; omega)
            (fun w y h1 h2 h3 => by
              obtain ⟨c, hc'⟩ := hchk hxc w h1 (by omega)
              have := noConflict_iff hro hru h3 hc'
              rw [hop] at this
              exact (rewrite_compatible this).1) hlook hlp
          omega
      refine ⟨fun g hg f hf => ⟨by have := (hkey g hg f hf).2; omega, (hkey g hg f hf).1⟩, ?_⟩
      intro g hg f hf g' hg' hm
      obtain ⟨o, ho, e1⟩ := mem_ids.1 hm
      have h1 := (ih1 _ b hlook).le o (p1 g' hg' o ho)
      have h2 := (hkey g hg f hf).2
      omega
    refine ⟨?_, ?_⟩
    · intro v e he
      by_cases hvt : v = h.length + 2
      · subst hvt
        rw [show h.length + 2 = (q :: h).length + 1 from rfl, look_top] at he
        cases he
        cases hop : x.job.tx.op with
        | restore w =>
          obtain ⟨m0, hl, hf, _, _, _, _, hm, _⟩ := attempt_restore hop hatt
          unfold Hist.read at hl
          split at hl
          · cases hl
          · cases hlk : Hist.look (q :: h) w with
            | none => rw [hlk] at hl; cases hl
            | some e0 =>
              rw [hlk] at hl
              simp only [Option.map_some, Option.some.injEq, Prod.mk.injEq] at hl
              have h0 := ih1 w e0 hlk
              rw [hl.1] at h0
              refine ⟨by rw [hf]; exact h0.nodup, ?_⟩
              intro f hfm
              rw [hf] at hfm
              have := h0.le f hfm
              omega
        | overwrite fs sch up =>
          have hb : Built (some q.m) q.ix _ _ _ := (attempt_build (by intro w; rw [hop]; intro h; cases h) hatt).1
          unfold Prepared at hprep
          rw [hop] at hprep
          refine ⟨?_, built_le hb⟩
          rw [(overwrite_ids hb hop (fun f hf => (hprep f hf).1)).nodup_iff]
          exact nodup_range' _ _
        | merge fs sch =>
          have hb : Built (some q.m) q.ix _ _ _ := (attempt_build (by intro w; rw [hop]; intro h; cases h) hatt).1
          unfold Prepared at hprep
          rw [hop] at hprep
          refine ⟨?_, built_le hb⟩
          rw [merge_frags hb hop, (ids_perm (sortBy_perm _ _)).nodup_iff, ids_of_rows hprep]
          exact (ih1 _ b hlook).nodup
        | _ =>
          have hb : Built (some q.m) q.ix _ _ _ := (attempt_build (by intro w; rw [hop]; intro h; cases h) hatt).1
          have hia := ids_after hb hq (by intro a b c; rw [hop]; intro h; cases h)
            (by intro a b; rw [hop]; intro h; cases h) (step_new_ids hprep hfresh)
          exact ⟨hia.1, built_le hb⟩
      · have := (look_le he).2
        simp only [List.length_cons] at this
        rw [look_cons_of_le x (by simp only [List.length_cons]; omega)] at he
        exact ih1 v e he
    · intro u e p hu h1 he hp gs r ho
      simp only [List.length_cons] at hu
      by_cases hut : u = h.length + 1
      · subst hut
        rw [show h.length + 1 + 1 = (q :: h).length + 1 from rfl, look_top] at he
        rw [look_cons_of_le x (show h.length + 1 ≤ (q :: h).length from Nat.le_refl _), look_top] at hp
        cases he; cases hp
        exact hfresh gs r ho
      · rw [look_cons_of_le x (by simp only [List.length_cons]; omega)] at he hp
        exact ih2 u e p (by simp only [List.length_cons]; omega) h1 he hp gs r ho

end Verif.Txn
