import Verif.Txn.IdsInv
/-!
# What commits do to fragments they do not name, and what they may assume about those they do
-/
namespace Verif.Txn

/-- What `rewriteFrags_perm` needs. -/
def FreshOp (c : Manifest) (op : Op) : Prop :=
  match op with
  | .rewrite gs _ => (∀ g ∈ gs, ∀ f ∈ g.new, f.id ≠ 0 ∧ f.id ∉ ids c.frags) ∧
      (gs.flatMap (fun g => ids g.new)).Nodup ∧ (∀ g ∈ gs, ∀ f ∈ g.new, ∀ g' ∈ gs, f.id ∉ ids g'.old)
  | _ => True

theorem rewrite_built {c : Manifest} {ix0 : List Idx} {tx : Tx} {m : Manifest} {ix : List Idx}
    {gs : List Group} {r : List (Nat × Nat)} (hb : Built (some c) ix0 tx m ix) (hc : MOk c)
    (hop : tx.op = .rewrite gs r) (hfr : FreshOp c tx.op) :
    m.frags.Perm (c.frags.filter (fun f => !(gs.flatMap (fun g => ids g.old)).contains f.id) ++ gs.flatMap (·.new)) := by
  obtain ⟨schema, nr, fs, nr', h1, h2, h3, h4, h5, h6⟩ := hb.arms
  rw [hop] at h3
  unfold FreshOp at hfr
  rw [hop] at hfr
  obtain ⟨f1, f2, f3⟩ := hfr
  simp only [opArms, Option.map_some] at h3
  split at h3
  · cases h3
  · rename_i r1 n1 ha
    have hfs : fs = r1 := by
      cases nr with
      | none =>
        simp only at h3
        split at h3
        · cases h3
        · simp only [Except.ok.injEq, Prod.mk.injEq] at h3; exact h3.1.symm
      | some k =>
        simp only at h3
        split at h3
        · cases h3
        · simp only [Except.ok.injEq, Prod.mk.injEq] at h3; exact h3.1.symm
    subst hfs
    rw [h4]
    exact (sortBy_perm _ _).trans (rewriteFrags_perm hc.nodup (fun g hg f hf => (f1 g hg f hf).1) f2
      (fun g hg f hf => (f1 g hg f hf).2) f3 ha).1

/-- A fragment the operation does not name is carried over unchanged (its list of data files may lose
files when columns are dropped). -/
theorem stays {c : Manifest} {ix0 : List Idx} {tx : Tx} {m : Manifest} {ix : List Idx}
    (hb : Built (some c) ix0 tx m ix) (hc : MOk c) (hfr : FreshOp c tx.op)
    (hover : ∀ a b d, tx.op ≠ .overwrite a b d) (hmerge : ∀ a b, tx.op ≠ .merge a b)
    {f : Frag} (hf : f ∈ c.frags) (hid : f.id ∉ tx.op.modifiedIds) :
    ∃ g ∈ m.frags, g.rows = f.rows ∧ ((∀ s, tx.op ≠ .project s) → g = f) := by
  obtain ⟨schema, nr, fs, nr', h1, h2, h3, h4, h5, h6⟩ := hb.arms
  have hmem : ∀ g, g ∈ m.frags ↔ g ∈ fs := by intro g; rw [h4, mem_sortBy]
  cases hop : tx.op with
  | overwrite a b d => exact absurd hop (hover a b d)
  | merge a b => exact absurd hop (hmerge a b)
  | restore v => rw [hop] at h3; cases h3
  | append new =>
    rw [hop] at h3
    simp only [opArms, Option.map_some] at h3
    split at h3
    · cases h3
    · simp only [Except.ok.injEq, Prod.mk.injEq] at h3
      refine ⟨f, (hmem f).2 (by rw [← h3.1]; exact List.mem_append_left _ hf), rfl, fun _ => rfl⟩
  | delete ups del pr =>
    rw [hop] at h3 hid
    simp only [opArms, Option.map_some, Except.ok.injEq, Prod.mk.injEq] at h3
    simp only [Op.modifiedIds, List.mem_append, not_or] at hid
    refine ⟨f, (hmem f).2 ?_, rfl, fun _ => rfl⟩
    rw [← h3.1, List.mem_map]
    refine ⟨f, List.mem_filter.2 ⟨hf, by simp [hid.2]⟩, (applyUpdated_cases ups f).2.2 hid.1⟩
  | update rem ups new =>
    rw [hop] at h3 hid
    simp only [opArms, Option.map_some] at h3
    split at h3
    · cases h3
    · simp only [Except.ok.injEq, Prod.mk.injEq] at h3
      simp only [Op.modifiedIds, List.mem_append, not_or] at hid
      refine ⟨f, (hmem f).2 ?_, rfl, fun _ => rfl⟩
      rw [← h3.1]
      apply List.mem_append_left
      rw [List.mem_map]
      exact ⟨f, List.mem_filter.2 ⟨hf, by simp [hid.2]⟩, (applyFirstUpdated_cases ups f).2.2 hid.1⟩
  | rewrite gs r =>
    have hp := rewrite_built hb hc hop hfr
    refine ⟨f, hp.mem_iff.2 (List.mem_append_left _ (List.mem_filter.2 ⟨hf, ?_⟩)), rfl, fun _ => rfl⟩
    rw [hop] at hid
    simp only [Op.modifiedIds] at hid
    rw [Bool.not_eq_true', List.contains_eq_mem, decide_eq_false_iff_not]
    exact hid
  | createIndex a b =>
    rw [hop] at h3
    simp only [opArms, Option.map_some, Except.ok.injEq, Prod.mk.injEq] at h3
    exact ⟨f, (hmem f).2 (by rw [← h3.1]; exact hf), rfl, fun _ => rfl⟩
  | reserve n =>
    rw [hop] at h3
    simp only [opArms, Option.map_some, Except.ok.injEq, Prod.mk.injEq] at h3
    exact ⟨f, (hmem f).2 (by rw [← h3.1]; exact hf), rfl, fun _ => rfl⟩
  | updateConfig a b d e =>
    rw [hop] at h3
    simp only [opArms, Option.map_some, Except.ok.injEq, Prod.mk.injEq] at h3
    exact ⟨f, (hmem f).2 (by rw [← h3.1]; exact hf), rfl, fun _ => rfl⟩
  | project s =>
    rw [hop] at h3
    simp only [opArms, Option.map_some, Except.ok.injEq, Prod.mk.injEq] at h3
    exact ⟨projectFrag schema f, (hmem _).2 (by rw [← h3.1]; exact List.mem_map_of_mem hf), rfl,
      fun h => absurd rfl (h s)⟩
  | dataReplacement rs =>
    rw [hop] at h3 hid
    simp only [opArms, Option.map_some] at h3
    split at h3
    · cases h3
    · split at h3
      · cases h3
      · simp only [Except.ok.injEq, Prod.mk.injEq] at h3
        refine ⟨f, (hmem f).2 ?_, rfl, fun _ => rfl⟩
        rw [← h3.1]
        refine List.mem_append_right _ (List.mem_filter.2 ⟨hf, ?_⟩)
        rw [Bool.not_eq_true', List.contains_eq_mem, decide_eq_false_iff_not]
        exact hid

/-- Operations that change existing fragments by naming them. -/
def Op.Modifies : Op → Prop
  | .delete _ _ _ => True
  | .update _ _ _ => True
  | .rewrite _ _ => True
  | _ => False

theorem sameIds_false {a b : Op} (h : a.sameIds b = false) {i : Nat} (hi : i ∈ a.modifiedIds) : i ∉ b.modifiedIds := by
  intro hb
  unfold Op.sameIds at h
  have : b.modifiedIds.any (fun i => a.modifiedIds.contains i) = true :=
    List.any_eq_true.2 ⟨i, hb, by simpa using hi⟩
  rw [this] at h; cases h

/-- What a delete, update or rewrite does not conflict with leaves its fragments alone. -/
theorem modifies_compatible {a o : Op} (ha : a.Modifies) (h : a.conflicts o = false) :
    (∀ v, o ≠ .restore v) ∧ (∀ x y z, o ≠ .overwrite x y z) ∧ (∀ x y, o ≠ .merge x y) ∧
      (∀ x, o ≠ .dataReplacement x) ∧ ∀ i ∈ a.modifiedIds, i ∉ o.modifiedIds := by
  cases a <;> simp only [Op.Modifies] at ha <;>
    cases o <;>
    first
      | (simp [Op.conflicts] at h; done)
      | (refine ⟨fun _ h => (by cases h), fun _ _ _ h => (by cases h), fun _ _ h => (by cases h),
          fun _ h => (by cases h), ?_⟩
         intro i hi
         first
          | (simp [Op.modifiedIds]; done)
          | exact sameIds_false (by simpa [Op.conflicts] using h) hi)

theorem freshOp_of {H : Hist} {n : Nat} (hfr : FreshRewrites H n) {u : Nat} {e p : Entry} (hu : u < n) (h1 : 1 ≤ u)
    (he : H.look (u + 1) = some e) (hp : H.look u = some p) {b : Manifest} (hprep : Prepared H b e.job) :
    FreshOp p.m e.job.tx.op := by
  unfold FreshOp
  cases hop : e.job.tx.op with
  | rewrite gs r =>
    unfold Prepared at hprep
    rw [hop] at hprep
    obtain ⟨h2, h3⟩ := hfr u e p hu h1 he hp gs r hop
    exact ⟨h2, hprep.2.2.1, h3⟩
  | _ => trivial

/-- Snapshot stability: the fragments named by a delete, update or rewrite `a` checked against the
versions `r+1 … n` have the same rows in version `n` as in version `r`. -/
theorem named_stable {H : Hist} (hv : Valid H) (hcl : H.Clean) {a : Op} (ha : a.Modifies) {r n : Nat}
    (h1 : 1 ≤ r) (hrn : r ≤ n) (hn : n ≤ H.length)
    (hchk : ∀ u o, r < u → u ≤ n → H.look u = some o → a.conflicts o.job.tx.op = false)
    {b p : Entry} (hb : H.look r = some b) (hp : H.look n = some p)
    {f : Frag} (hf : f ∈ b.m.frags) (hid : f.id ∈ a.modifiedIds) :
    ∃ g ∈ p.m.frags, g.rows = f.rows := by
  obtain ⟨hok, hfr⟩ := all_ok hv hcl
  induction n generalizing p with
  | zero => omega
  | succ n ih =>
    by_cases hc : r = n + 1
    · subst hc; rw [hb] at hp; cases hp; exact ⟨f, hf, rfl⟩
    · obtain ⟨q, hq⟩ := look_exists (h := H) (v := n) (by omega) (by omega)
      obtain ⟨g, hg, hgr⟩ := ih (by omega) (by omega) (fun u o h2 h3 => hchk u o h2 (by omega)) hq
      have hst := valid_step hv (by omega) hp hq
      obtain ⟨c1, c2, c3, c4, c5⟩ := modifies_compatible ha (hchk (n + 1) p (by omega) (Nat.le_refl _) hp)
      obtain ⟨rd, hatt, _⟩ := hst.att
      obtain ⟨b0, _, hprep⟩ := hst.prep
      have hbl : Built (some q.m) q.ix _ _ _ := (attempt_build c1 hatt).1
      have hgid : g.id = f.id := by have := congrArg Frag.id hgr; exact this
      obtain ⟨g', hg', hr', _⟩ := stays hbl (hok n q hq) (freshOp_of hfr (by omega) (by omega) hp hq hprep) c2 c3 hg
        (by rw [hgid]; exact c5 f.id hid)
      exact ⟨g', hg', hr'.trans hgr⟩

theorem merge_compatible {fs : List Frag} {s : Schema} {o : Op} (h : (Op.merge fs s).conflicts o = false) :
    (∃ a b, o = .createIndex a b) ∨ (∃ n, o = .reserve n) ∨ ∃ a b c d, o = .updateConfig a b c d := by
  cases o <;> simp_all [Op.conflicts]

/-- A manifest's fragments are kept sorted by id. -/
theorem built_sorted {cur : Option Manifest} {ix0 : List Idx} {tx : Tx} {m : Manifest} {ix : List Idx}
    (hb : Built cur ix0 tx m ix) : m.frags.Pairwise (fun a b => a.id ≤ b.id) := by
  obtain ⟨schema, nr, fs, nr', h1, h2, h3, h4, h5, h6⟩ := hb.arms
  rw [h4]; exact sortBy_sorted _ _

theorem sorted_all {H : Hist} (hv : Valid H) {v : Nat} {e : Entry} (he : H.look v = some e) :
    e.m.frags.Pairwise (fun a b => a.id ≤ b.id) := by
  induction v using Nat.strongRecOn generalizing e with
  | ind v ih =>
    have hle := look_le he
    by_cases h1 : v = 1
    · subst h1
      obtain ⟨_, _, _, hatt⟩ := valid_first hv he
      exact built_sorted (attemptNew_build hatt)
    · obtain ⟨p, hp⟩ := look_exists (h := H) (v := v - 1) (by omega) (by omega)
      have hst := valid_step hv (v := v - 1) (by omega) (by rw [Nat.sub_add_cancel (by omega)]; exact he) hp
      obtain ⟨rd, hatt, hrd⟩ := hst.att
      cases hop : e.job.tx.op with
      | restore w =>
        obtain ⟨m0, hl, hf, _⟩ := attempt_restore hop hatt
        obtain ⟨hw, e0, h3, h4⟩ := hrd w _ hl
        simp only [Prod.mk.injEq] at h4
        rw [hf, h4.1]
        exact ih w (by omega) h3
      | _ => exact built_sorted (attempt_build (by intro w; rw [hop]; intro h; cases h) hatt).1

theorem same_frags {c : Manifest} {ix0 : List Idx} {tx : Tx} {m : Manifest} {ix : List Idx}
    (hb : Built (some c) ix0 tx m ix) (hs : c.frags.Pairwise (fun a b => a.id ≤ b.id))
    (h : (∃ a b, tx.op = .createIndex a b) ∨ (∃ n, tx.op = .reserve n) ∨ ∃ a b c d, tx.op = .updateConfig a b c d) :
    m.frags = c.frags := by
  obtain ⟨schema, nr, fs, nr', h1, h2, h3, h4, h5, h6⟩ := hb.arms
  have hfs : fs = c.frags := by
    rcases h with ⟨a, b, h⟩ | ⟨n, h⟩ | ⟨a, b, d, e, h⟩ <;> rw [h] at h3 <;>
      simp only [opArms, Option.map_some, Except.ok.injEq, Prod.mk.injEq] at h3 <;> exact h3.1.symm
  rw [h4, hfs, sortBy_of_sorted _ _ hs]

/-- A merge that passed the check finds exactly the fragments it read. -/
theorem merge_stable {H : Hist} (hv : Valid H) {fs : List Frag} {s : Schema} {r n : Nat}
    (h1 : 1 ≤ r) (hrn : r ≤ n) (hn : n ≤ H.length)
    (hchk : ∀ u o, r < u → u ≤ n → H.look u = some o → (Op.merge fs s).conflicts o.job.tx.op = false)
    {b p : Entry} (hb : H.look r = some b) (hp : H.look n = some p) : p.m.frags = b.m.frags := by
  induction n generalizing p with
  | zero => omega
  | succ n ih =>
    by_cases hc : r = n + 1
    · subst hc; rw [hb] at hp; cases hp; rfl
    · obtain ⟨q, hq⟩ := look_exists (h := H) (v := n) (by omega) (by omega)
      have := ih (by omega) (by omega) (fun u o h2 h3 => hchk u o h2 (by omega)) hq
      have hst := valid_step hv (by omega) hp hq
      obtain ⟨rd, hatt, _⟩ := hst.att
      have hk := merge_compatible (hchk (n + 1) p (by omega) (Nat.le_refl _) hp)
      have hbl : Built (some q.m) q.ix _ _ _ := (attempt_build (by
        intro w; rcases hk with ⟨a, b, h⟩ | ⟨n, h⟩ | ⟨a, b, d, e, h⟩ <;> rw [h] <;> intro h' <;> cases h') hatt).1
      rw [same_frags hbl (sorted_all hv hq) hk]
      exact this

/-- The check of a committed version, in terms of the operations themselves. -/
theorem checked_ops {H : Hist} (hv : Valid H) (hcl : H.Clean) {v : Nat} {e p : Entry} (h1 : 1 ≤ v)
    (he : H.look (v + 1) = some e) (hp : H.look v = some p)
    (ho : ∀ x y z, e.job.tx.op ≠ .overwrite x y z) (hu : ∀ x y z w, e.job.tx.op ≠ .updateConfig x y z w) :
    ∀ u o, e.job.tx.read < u → u ≤ v → H.look u = some o → e.job.tx.op.conflicts o.job.tx.op = false := by
  intro u o h2 h3 h4
  have hst := valid_step hv h1 he hp
  obtain ⟨c, hc⟩ := hst.chk (clean_at hcl he) u h2 h3
  exact noConflict_iff ho hu h4 hc

end Verif.Txn
