import Verif.Txn.RowIdsInv
import Verif.Txn.Play
/-!
# C18 (config updates), C42 (feature flags), C47 (restore)
-/
namespace Verif.Txn

/-! ## C18 -/

/-- What a commit says about a config key: a new value, removed, or nothing.  When a key is both
upserted and deleted the upsert wins. -/
def Writes (op : Op) (k : Nat) : Option (Option Nat) :=
  match op with
  | .overwrite _ _ (some up) => if k ∈ up.map (·.1) then some (SMap.get k up) else none
  | .updateConfig up del _ _ =>
    if k ∈ (up.getD []).map (·.1) then some (SMap.get k (up.getD []))
    else if k ∈ del.getD [] then some none else none
  | _ => none

theorem get_extend {c up : Cfg} {k : Nat} (hnd : (up.map (·.1)).Nodup) :
    SMap.get k (c.extend up) = if k ∈ up.map (·.1) then SMap.get k up else SMap.get k c := by
  unfold Cfg.extend
  induction up generalizing c with
  | nil => simp
  | cons e up ih =>
    obtain ⟨k', v'⟩ := e
    rw [List.map_cons, List.nodup_cons] at hnd
    rw [List.foldl_cons, ih hnd.2, SMap.get_insert]
    simp only [List.map_cons, List.mem_cons, SMap.get]
    by_cases h1 : k ∈ up.map (·.1)
    · have hne : k' ≠ k := fun h => hnd.1 (h ▸ h1)
      simp [h1, hne]
    · by_cases h2 : k = k'
      · subst h2; simp [h1]
      · have hne : k' ≠ k := fun h => h2 h.symm
        simp [h1, h2, hne]

theorem get_deleteKeys {c : Cfg} {ks : List Nat} {k : Nat} :
    SMap.get k (c.deleteKeys ks) = if k ∈ ks then none else SMap.get k c := by
  unfold Cfg.deleteKeys
  rw [SMap.get_filter_key (fun x => !ks.contains x)]
  by_cases h : k ∈ ks <;> simp [h]

/-- The upserted keys of an operation are the keys of a hash map. -/
def OpKeys (op : Op) : Prop :=
  match op with
  | .overwrite _ _ (some up) => (up.map (·.1)).Nodup
  | .updateConfig (some up) _ _ _ => (up.map (·.1)).Nodup
  | _ => True

theorem get_cfgAfter {op : Op} (hk : OpKeys op) (c : Cfg) (k : Nat) :
    SMap.get k (cfgAfter op c) = (Writes op k).getD (SMap.get k c) := by
  unfold cfgAfter Writes
  cases op with
  | overwrite fs s up =>
    cases up with
    | none => rfl
    | some up =>
      simp only
      rw [get_extend hk]
      split <;> rfl
  | updateConfig up del smd fmd =>
    cases up with
    | none =>
      cases del with
      | none => simp
      | some ks => simp only [get_deleteKeys]; by_cases h : k ∈ ks <;> simp [h]
    | some up =>
      cases del with
      | none => simp only [get_extend hk]; by_cases h : k ∈ up.map (·.1) <;> simp [h]
      | some ks =>
        simp only [get_extend hk, get_deleteKeys, Option.getD_some]
        by_cases h : k ∈ up.map (·.1)
        · simp [h]
        · by_cases h' : k ∈ ks <;> simp [h, h']
  | _ => rfl

/-- After any commit other than a restore, each config key has exactly the value the commit says, and
the previous value if the commit says nothing about it. -/
theorem C18_update_semantics {s : Sys} (hr : Reach s) {v : Nat} {e p : Entry}
    (hp : s.hist.look v = some p) (he : s.hist.look (v + 1) = some e) (hres : ∀ w, e.job.tx.op ≠ .restore w)
    (hk : OpKeys e.job.tx.op) (k : Nat) :
    SMap.get k e.m.config = (Writes e.job.tx.op k).getD (SMap.get k p.m.config) := by
  have hv := valid_of_reach hr
  obtain ⟨rd, hatt, _⟩ := (valid_step hv (look_le hp).1 he hp).att
  have hbl : Built (some p.m) p.ix _ _ _ := (attempt_build hres hatt).1
  rw [hbl.cfg]
  exact get_cfgAfter hk _ k

/-- A value set by a commit is there in every later version as long as nobody writes that key and
nothing is restored. -/
theorem C18_value_kept {s : Sys} (hr : Reach s) {a b : Nat} {ea eb : Entry} (hab : a ≤ b)
    (ha : s.hist.look a = some ea) (hb : s.hist.look b = some eb) {k : Nat}
    (hno : ∀ u x, a < u → u ≤ b → s.hist.look u = some x →
      (∀ w, x.job.tx.op ≠ .restore w) ∧ OpKeys x.job.tx.op ∧ Writes x.job.tx.op k = none) :
    SMap.get k eb.m.config = SMap.get k ea.m.config := by
  induction b generalizing eb with
  | zero => exact absurd (look_le hb).1 (by omega)
  | succ b ih =>
    by_cases hc : a = b + 1
    · subst hc; rw [ha] at hb; cases hb; rfl
    · have h1a := (look_le ha).1
      obtain ⟨p, hp⟩ := look_exists (h := s.hist) (v := b) (by omega) (by have := look_le hb; omega)
      obtain ⟨h1, h2, h3⟩ := hno (b + 1) eb (by omega) (Nat.le_refl _) hb
      rw [C18_update_semantics hr hp hb h1 h2 k, h3]
      exact ih (by omega) hp (fun u x h4 h5 => hno u x h4 (by omega))

/-- Full claim about concurrent updates: a commit that writes a key another commit set has seen that
commit. -/
def C18_statement : Prop :=
  ∀ s, Reach s → s.hist.Clean → ∀ t1 t2 e1 e2, t1 < t2 → s.hist.look t1 = some e1 → s.hist.look t2 = some e2 →
    ∀ k, k ∈ e1.job.tx.op.upsertKeys → Writes e2.job.tx.op k ≠ none → t1 ≤ e2.job.tx.read

theorem writes_keys {op : Op} {k : Nat} (h : Writes op k ≠ none) : k ∈ op.upsertKeys ∨ k ∈ op.deleteKeys := by
  unfold Writes at h
  cases op with
  | overwrite fs s up =>
    cases up with
    | none => exact absurd rfl h
    | some up =>
      simp only at h
      split at h
      · exact Or.inl (by assumption)
      · exact absurd rfl h
  | updateConfig up del smd fmd =>
    simp only at h
    split at h
    · rename_i hk
      cases up with
      | none => cases hk
      | some up => exact Or.inl hk
    · split at h
      · rename_i hk
        cases del with
        | none => cases hk
        | some ks => exact Or.inr hk
      · exact absurd rfl h
  | _ => exact absurd rfl h

theorem stored_keys {up : Option Cfg} {del : Option (List Nat)} {smd : Option Cfg} {fmd : Option (SMap Cfg)} :
    (Op.updateConfig up del smd fmd).stored.upsertKeys = (Op.updateConfig up del smd fmd).upsertKeys ∧
    (Op.updateConfig up del smd fmd).stored.deleteKeys = (Op.updateConfig up del smd fmd).deleteKeys := by
  constructor
  · match up with
    | none => rfl
    | some [] => rfl
    | some (x :: l) => rfl
  · match del with
    | none => rfl
    | some [] => rfl
    | some (x :: l) => rfl

/-- Config updates (not overwrites) as the earlier commit: a commit that writes a key has seen every
config update that set it, so no update is silently lost. -/
theorem C18_no_lost_update_partial {s : Sys} (hr : Reach s) (hc : s.hist.Clean) {t1 t2 : Nat} {e1 e2 : Entry}
    (hlt : t1 < t2) (h1 : s.hist.look t1 = some e1) (h2 : s.hist.look t2 = some e2)
    (hop1 : ∃ a b c d, e1.job.tx.op = .updateConfig a b c d)
    {k : Nat} (hk1 : k ∈ e1.job.tx.op.upsertKeys) (hk2 : Writes e2.job.tx.op k ≠ none) : t1 ≤ e2.job.tx.read := by
  have hv := valid_of_reach hr
  rcases Nat.lt_or_ge e2.job.tx.read t1 with hlt' | hge
  · exfalso
    obtain ⟨t, rfl⟩ : ∃ t, t2 = t + 1 := ⟨t2 - 1, by omega⟩
    have hl1 := look_le h1
    obtain ⟨p, hp⟩ := look_exists (h := s.hist) (v := t) (by omega) (by have := look_le h2; omega)
    have hst := valid_step hv (by omega) h2 hp
    obtain ⟨c, hcheck⟩ := hst.chk (clean_at hc h2) t1 hlt' (by omega)
    unfold noConflict Hist.opAt at hcheck
    rw [h1] at hcheck
    simp only [Option.map_some, Bool.not_eq_true'] at hcheck
    obtain ⟨a, b, cc, d, hop⟩ := hop1
    have hkc : ∃ o, (o.upsertKeys = e1.job.tx.op.upsertKeys ∧ o.deleteKeys = e1.job.tx.op.deleteKeys) ∧
        (∃ a b c d, o = .updateConfig a b c d) ∧ e2.job.tx.op.conflicts o = false := by
      split at hcheck
      · exact ⟨_, ⟨rfl, rfl⟩, ⟨a, b, cc, d, hop⟩, hcheck⟩
      · rw [hop] at hcheck ⊢
        exact ⟨_, stored_keys, ⟨_, _, _, _, rfl⟩, hcheck⟩
    obtain ⟨o, ⟨ho1, ho2⟩, ⟨a', b', c', d', hoe⟩, hcf⟩ := hkc
    have hkey : e2.job.tx.op.keyConflict o = false := by
      have hw := hk2
      cases hop2 : e2.job.tx.op with
      | overwrite x y z => rw [hop2, hoe] at hcf; rw [hoe]; exact hcf
      | updateConfig x y z w =>
        rw [hop2, hoe] at hcf
        simp only [Op.conflicts, Bool.or_eq_false_iff] at hcf
        rw [hoe]; exact hcf.1
      | _ => rw [hop2] at hk2; exact absurd rfl hk2
    unfold Op.keyConflict at hkey
    rw [Bool.or_eq_false_iff] at hkey
    have hmem : k ∈ o.upsertKeys := by rw [ho1]; exact hk1
    have h2' : o.upsertKeys.any (fun x => e2.job.tx.op.upsertKeys.contains x || e2.job.tx.op.deleteKeys.contains x) = true :=
      List.any_eq_true.2 ⟨k, hmem, by
        rcases writes_keys hk2 with h | h
        · simp [h]
        · simp [h]⟩
    rw [hkey.2] at h2'; cases h2'
  · exact hge

/-- Two concurrent updates of different keys: both commit and both take effect. -/
example : (play false (xcreate [xnew 1 3])
    [xtx 1 101 (.updateConfig (some [(5, 50), (6, 60)]) none none none),
     xtx 1 102 (.updateConfig (some [(7, 70)]) (some [9]) none none)]).map (fun h => h.map (fun e => e.m.config)) =
    some [[(5, 50), (6, 60), (7, 70)], [(5, 50), (6, 60)], []] := by decide +kernel

/-- The upserted keys of an `Overwrite` are lost when its transaction file is read back (the emptiness
test is inverted), so a concurrent update of the same key is not noticed. -/
theorem C18_overwrite_violated : ¬ C18_statement := by
  intro hst
  obtain ⟨s, k, h1, _, hc, ⟨e, he, q1⟩, a, ha, r1, r2⟩ := play_ex (cached := false) (j := xcreate [xnew 1 3])
    (js := [xtx 1 101 (.overwrite [xnew 2 4] xschema (some [(5, 1)])), xtx 1 102 (.updateConfig (some [(5, 2)]) none none none)])
    (fun h => h.At 2 (fun e => 5 ∈ e.job.tx.op.upsertKeys) ∧ h.At 3 (fun e => Writes e.job.tx.op 5 ≠ none ∧ e.job.tx.read = 1))
    (by decide +kernel)
  have := hst s h1 hc 2 3 e a (by decide) he ha 5 q1 r1
  omega

/-! ## C42 -/

/-- A dataset is read exactly when its reader flags have no bit other than the four known ones; the same
for writing. -/
theorem C42_unknown_refused (f : Nat) :
    (canRead f = true ↔ ∀ i, 4 ≤ i → f.testBit i = false) ∧ (canWrite f = true ↔ ∀ i, 4 ≤ i → f.testBit i = false) := by
  have key : decide (f < 16) = true ↔ ∀ i, 4 ≤ i → f.testBit i = false := by
    rw [decide_eq_true_eq]
    constructor
    · intro h i hi
      exact Nat.testBit_lt_two_pow (Nat.lt_of_lt_of_le h (Nat.pow_le_pow_right (n := 2) (by decide) hi))
    · intro h
      exact Nat.lt_pow_two_of_testBit (n := 4) f h
  exact ⟨key, key⟩

theorem flagsOf_bits (fs : List Frag) (st : Bool) (c : Bool) :
    let f := flagsOf fs st ||| (if c then 0 else 8)
    f < 16 ∧ flagsOf fs st < 4 ∧
    (f.testBit 0 = fs.any (fun f => f.del.isSome)) ∧ (f.testBit 1 = (fs.any (fun f => f.rowIds.isSome) || st)) ∧
    f.testBit 2 = false ∧ f.testBit 3 = !c ∧
    ((flagsOf fs st).testBit 0 = fs.any (fun f => f.del.isSome)) ∧
    ((flagsOf fs st).testBit 1 = (fs.any (fun f => f.rowIds.isSome) || st)) := by
  unfold flagsOf
  cases fs.any (fun f => f.del.isSome) <;> cases fs.any (fun f => f.rowIds.isSome) <;> cases st <;> cases c <;> decide

/-- The flags of every version in every reachable history: the deletion bit is set exactly when some
fragment has a deletion file; the row id bit is set if some fragment has row ids, and then all have; the
config bit (writers only) is set exactly when there is a config; and this library can read and write what
it wrote. -/
theorem C42_flags_describe {s : Sys} (hr : Reach s) {v : Nat} {e : Entry} (he : s.hist.look v = some e) :
    (e.m.rflags.testBit 0 = true ↔ ∃ f ∈ e.m.frags, f.del.isSome = true) ∧
    (e.m.wflags.testBit 0 = true ↔ ∃ f ∈ e.m.frags, f.del.isSome = true) ∧
    ((∃ f ∈ e.m.frags, f.rowIds.isSome = true) → e.m.rflags.testBit 1 = true ∧ e.m.wflags.testBit 1 = true) ∧
    (e.m.rflags.testBit 1 = true → ∀ f ∈ e.m.frags, f.rowIds.isSome = true) ∧
    (e.m.wflags.testBit 3 = true ↔ e.m.config ≠ []) ∧
    canRead e.m.rflags = true ∧ canWrite e.m.wflags = true := by
  have hv := valid_of_reach hr
  have key : e.m.rflags = flagsOf e.m.frags e.job.tx.stable ∧
      e.m.wflags = flagsOf e.m.frags e.job.tx.stable ||| (if e.m.config.isEmpty then 0 else 8) ∧
      ((e.m.frags.any (fun f => f.rowIds.isSome) || e.job.tx.stable) = true → ∀ f ∈ e.m.frags, f.rowIds.isSome = true) := by
    have hle := look_le he
    by_cases h1 : v = 1
    · subst h1
      obtain ⟨_, _, _, hatt⟩ := valid_first hv he
      have hbl := attemptNew_build hatt
      exact ⟨hbl.rfl', hbl.wfl, hbl.all⟩
    · obtain ⟨p, hp⟩ := look_exists (h := s.hist) (v := v - 1) (by omega) (by omega)
      have he' : s.hist.look (v - 1 + 1) = some e := by rw [Nat.sub_add_cancel (by omega)]; exact he
      obtain ⟨rd, hatt, hrd⟩ := (valid_step hv (by omega) he' hp).att
      by_cases hres : ∃ w, e.job.tx.op = .restore w
      · obtain ⟨w, hop⟩ := hres
        obtain ⟨m0, hl, h2, _, h5, _, _, _, h3, h6, h4, _⟩ := attempt_restore hop hatt
        rw [← h2] at h3 h6
        rw [← h5] at h6
        exact ⟨h3, h6, h4⟩
      · have hbl : Built (some p.m) p.ix _ _ _ := (attempt_build (fun w h => hres ⟨w, h⟩) hatt).1
        exact ⟨hbl.rfl', hbl.wfl, hbl.all⟩
  obtain ⟨k1, k2, k3⟩ := key
  have hb := flagsOf_bits e.m.frags e.job.tx.stable e.m.config.isEmpty
  obtain ⟨b1, b2, b3, b4, b5, b6, b7, b8⟩ := hb
  have hany : ∀ q : Frag → Bool, (e.m.frags.any q = true ↔ ∃ f ∈ e.m.frags, q f = true) := fun q => List.any_eq_true
  refine ⟨by rw [k1, b7]; exact hany _, by rw [k2, b3]; exact hany _, ?_, ?_, ?_, ?_, ?_⟩
  · intro h
    have := (hany (fun f => f.rowIds.isSome)).2 h
    rw [k1, b8, k2, b4, this]; exact ⟨rfl, rfl⟩
  · intro h
    rw [k1, b8] at h; exact k3 h
  · rw [k2, b6]; cases e.m.config <;> simp
  · rw [k1]; unfold canRead; exact decide_eq_true (by omega)
  · rw [k2]; unfold canWrite; exact decide_eq_true b1

/-- A version with deletions, config and row ids: flags 1+2 and 1+2+8. -/
example : (play false (xcreate [xnew 1 3] true)
    [xtx 1 101 (.delete [⟨0, [xf 1], some ⟨1, 7, [1]⟩, some [0, 1, 2], some 3⟩] [] 0),
     xtx 2 102 (.updateConfig (some [(5, 50)]) none none none)]).map (fun h => h.map (fun e => (e.m.rflags, e.m.wflags))) =
    some [(3, 11), (3, 3), (2, 2)] := by decide +kernel

/-! ## C47 -/

/-- The version a restore commits has the fragments, schema, config and indices of the restored version. -/
theorem C47_restore_content {s : Sys} (hr : Reach s) {t w : Nat} {e : Entry} (he : s.hist.look (t + 1) = some e)
    (hop : e.job.tx.op = .restore w) :
    ∃ e0, s.hist.look w = some e0 ∧ w ≤ t ∧ e.m.frags = e0.m.frags ∧ e.m.schema = e0.m.schema ∧
      e.m.config = e0.m.config ∧ e.ix = e0.ix ∧ e.m.version = t + 1 := by
  have hv := valid_of_reach hr
  have h1 : 1 ≤ t := by
    rcases Nat.eq_zero_or_pos t with h | h
    · subst h
      obtain ⟨⟨fs, sch, up, ho, _⟩, _⟩ := valid_first hv he
      rw [hop] at ho; cases ho
    · exact h
  obtain ⟨p, hp⟩ := look_exists (h := s.hist) (v := t) h1 (by have := look_le he; omega)
  obtain ⟨rd, hatt, hrd⟩ := (valid_step hv h1 he hp).att
  obtain ⟨m0, hl, h2, h3, h4, h5, h6, _⟩ := attempt_restore hop hatt
  obtain ⟨hw, e0, h7, h8⟩ := hrd w _ hl
  simp only [Prod.mk.injEq] at h8
  rw [h8.1] at h2 h4 h5
  exact ⟨e0, h7, hw, h2, h5, h4, h8.2, h6⟩

/-- No step changes a committed version. -/
theorem C47_versions_immutable {s t : Sys} (h : Step s t) {v : Nat} {e : Entry} (he : s.hist.look v = some e) :
    t.hist.look v = some e := by
  cases h with
  | create w j m ix hw h0 fs sch up hop hr hread hprep hatt => rw [h0] at he; cases he
  | commit w j p h m ix hw hh hnw hatt => exact look_cons_some _ he
  | _ => exact he

/-- Restoring version 1 over an append with changed config. -/
example : (play false (xcreate [xnew 1 3])
    [xtx 1 101 (.append [xnew 2 4]), xtx 2 102 (.updateConfig (some [(5, 50)]) none none none),
     xtx 3 103 (.restore 2)]).map (fun h => h.map (fun e => (e.m.version, e.m.frags.map (·.id), e.m.config))) =
    some [(4, [0, 1], []), (3, [0, 1], [(5, 50)]), (2, [0, 1], []), (1, [0], [])] := by decide +kernel

end Verif.Txn
