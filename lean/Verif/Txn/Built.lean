import Verif.Txn.Valid
/-!
# What a successful attempt wrote

`Built cur ix0 tx m ix`: the manifest `m` and indices `ix` come from `build_manifest` followed by
`write_manifest_file`.  The fields say how each part was computed.
-/
namespace Verif.Txn

/-- The largest fragment id of a list, 0 if there is none. -/
def maxId (fs : List Frag) : Nat := (fs.map (·.id)).max?.getD 0

theorem le_maxId {fs : List Frag} {f : Frag} (hf : f ∈ fs) : f.id ≤ maxId fs := by
  unfold maxId
  cases h : (fs.map (·.id)).max? with
  | none =>
    rw [List.max?_eq_none_iff, List.map_eq_nil_iff] at h
    subst h; simp at hf
  | some x =>
    exact (List.max?_eq_some_iff.1 h).2 f.id (List.mem_map_of_mem hf)

theorem maxId_mem {fs : List Frag} (h : fs ≠ []) : ∃ f ∈ fs, f.id = maxId fs := by
  unfold maxId
  cases hm : (fs.map (·.id)).max? with
  | none =>
    rw [List.max?_eq_none_iff, List.map_eq_nil_iff] at hm
    exact absurd hm h
  | some x =>
    obtain ⟨f, hf, he⟩ := List.mem_map.1 (List.max?_eq_some_iff.1 hm).1
    exact ⟨f, hf, he⟩

theorem maxId_le {fs : List Frag} {n : Nat} (h : ∀ f ∈ fs, f.id ≤ n) : maxId fs ≤ n := by
  by_cases he : fs = []
  · subst he; simp [maxId]
  · obtain ⟨f, hf, e⟩ := maxId_mem he
    rw [← e]; exact h f hf

theorem maxId_congr {fs gs : List Frag} (h : ∀ f, f ∈ fs ↔ f ∈ gs) : maxId fs = maxId gs :=
  Nat.le_antisymm (maxId_le (fun f hf => le_maxId ((h f).1 hf))) (maxId_le (fun f hf => le_maxId ((h f).2 hf)))

theorem updateMax_ok {m m' : Manifest} (h : m.updateMax = .ok m') :
    m' = { m with maxFrag := max m.maxFrag (maxId m.frags) } ∧ maxId m.frags < U32 := by
  unfold Manifest.updateMax at h
  dsimp only at h
  split at h
  · rename_i hlt
    cases h
    refine ⟨?_, hlt⟩
    congr 1
    show (if maxId m.frags > m.maxFrag then maxId m.frags else m.maxFrag) = _
    split <;> omega
  · cases h

/-- Reader flags a manifest should have. -/
def flagsOf (fs : List Frag) (enable : Bool) : Nat :=
  (if fs.any (fun f => f.del.isSome) then 1 else 0) |||
    (if fs.any (fun f => f.rowIds.isSome) || enable then 2 else 0)

theorem applyFlags_ok {m m' : Manifest} {en : Bool} (h : applyFlags m en = .ok m') :
    m' = { m with rflags := flagsOf m.frags en,
                  wflags := flagsOf m.frags en ||| (if m.config.isEmpty then 0 else 8) } ∧
    ((m.frags.any (fun f => f.rowIds.isSome) || en) = true → ∀ f ∈ m.frags, f.rowIds.isSome = true) := by
  unfold applyFlags at h
  dsimp only at h
  split at h
  · cases h
  · rename_i hc
    cases h
    refine ⟨rfl, ?_⟩
    intro h1 f hf
    simp only [h1, Bool.true_and, Bool.not_eq_true', Bool.not_eq_false, List.all_eq_true] at hc
    exact hc f hf

/-- The configuration after the operation. -/
def cfgAfter (op : Op) (c : Cfg) : Cfg :=
  match op with
  | .overwrite _ _ (some up) => c.extend up
  | .updateConfig up del _ _ =>
    let c := match del with | some ks => c.deleteKeys ks | none => c
    match up with | some u => c.extend u | none => c
  | _ => c

/-- The schema after the metadata changes of the operation. -/
def schemaAfter (op : Op) (s : Schema) : Schema :=
  match op with
  | .updateConfig _ _ smd fmd =>
    let s := match smd with | some x => { s with md := x } | none => s
    match fmd with
    | some l => l.foldl (fun s e => s.setFieldMd e.1 e.2) s
    | none => s
  | _ => s

theorem applyConfig_eq (op : Op) (m : Manifest) :
    applyConfig op m = { m with config := cfgAfter op m.config, schema := schemaAfter op m.schema } := by
  unfold applyConfig cfgAfter schemaAfter
  cases op with
  | overwrite fs s up => cases up <;> rfl
  | updateConfig up del smd fmd => cases up <;> cases del <;> cases smd <;> cases fmd <;> rfl
  | _ => rfl

/-- The counter after a reservation. -/
def maxAfter (op : Op) (n : Nat) : Nat :=
  match op with
  | .reserve k => (n + k) % U32
  | _ => n

theorem applyReserve_eq (op : Op) (m : Manifest) :
    applyReserve op m = { m with maxFrag := maxAfter op m.maxFrag } := by
  unfold applyReserve maxAfter
  cases op <;> rfl

/-- How `build_manifest` and `write_manifest_file` computed `m` and `ix`. -/
structure Built (cur : Option Manifest) (ix0 : List Idx) (tx : Tx) (m : Manifest) (ix : List Idx) : Prop where
  stab : tx.stable = true → ∀ c, cur = some c → c.usesStable = true
  arms : ∃ schema nr fs nr', newSchema tx.op cur = .ok schema ∧ startRowId cur tx.stable = .ok nr ∧
    opArms tx.op (cur.map (·.frags)) ix0 schema (firstFragId tx.op cur) nr = .ok (fs, nr', ix) ∧
    m.frags = sortBy Frag.id fs ∧ m.nextRow = nr'.getD ((cur.map (·.nextRow)).getD 0) ∧
    m.schema = schemaAfter tx.op schema
  maxf : m.maxFrag = max (maxAfter tx.op (max ((cur.map (·.maxFrag)).getD 0) (maxId m.frags))) (maxId m.frags)
  rfl' : m.rflags = flagsOf m.frags tx.stable
  wfl : m.wflags = flagsOf m.frags tx.stable ||| (if m.config.isEmpty then 0 else 8)
  all : (m.frags.any (fun f => f.rowIds.isSome) || tx.stable) = true → ∀ f ∈ m.frags, f.rowIds.isSome = true
  cfg : m.config = cfgAfter tx.op ((cur.map (·.config)).getD [])
  small : maxId m.frags < U32
  txf : m.txFile = some tx.uuid

theorem build_finish {tx : Tx} {cur : Option Manifest} {ix0 ix : List Idx} {m0 m : Manifest}
    (h : buildManifest tx cur ix0 tx.uuid = .ok (m0, ix)) (v : Nat)
    (hf : finish { m0 with version := v } tx.stable = .ok m) : Built cur ix0 tx m ix ∧ m.version = v := by
  unfold buildManifest at h
  split at h
  · cases h
  · rename_i hst
    split at h
    · cases h
    · rename_i schema hs
      split at h
      · cases h
      · rename_i nr hn
        split at h
        · cases h
        · rename_i fs nr' ix' ha
          dsimp only at h
          split at h
          · cases h
          · rename_i m1 hf1
            split at h
            · cases h
            · rename_i m2 hm2
              simp only [Except.ok.injEq, Prod.mk.injEq] at h
              obtain ⟨h, hix⟩ := h
              subst hix
              obtain ⟨e1, a1⟩ := applyFlags_ok hf1
              obtain ⟨e2, a2⟩ := updateMax_ok hm2
              rw [applyConfig_eq, applyReserve_eq, e2, e1] at h
              dsimp only at h
              unfold finish at hf
              split at hf
              · cases hf
              · rename_i m3 hf3
                obtain ⟨e3, a3⟩ := applyFlags_ok hf3
                obtain ⟨e4, a4⟩ := updateMax_ok hf
                have hfr : m0.frags = sortBy Frag.id fs := by
                  rw [← h]; dsimp only [freshManifest]; cases cur <;> rfl
                have hm : m.frags = sortBy Frag.id fs := by
                  rw [e4, e3]; exact hfr
                refine ⟨⟨?_, ⟨schema, nr, fs, nr', hs, hn, ha, hm, ?_, ?_⟩, ?_, ?_, ?_, ?_, ?_, ?_, ?_⟩, ?_⟩
                · intro h1 c hc
                  subst hc
                  simp only [h1, Bool.true_and, Option.map_some, Option.getD_some, Bool.not_eq_true',
                    Bool.not_eq_false] at hst
                  exact hst
                · rw [e4, e3, ← h]; dsimp only [freshManifest]; cases cur <;> rfl
                · rw [e4, e3, ← h]; dsimp only [freshManifest]; cases cur <;> rfl
                · rw [e4, e3, ← h]; dsimp only [freshManifest]; cases cur <;> rfl
                · rw [e4, e3]
                · rw [e4, e3]
                · rw [e4, e3]; exact a3
                · rw [e4, e3, ← h]; dsimp only [freshManifest]; cases cur <;> rfl
                · rw [e4, e3]; rw [e3] at a4; exact a4
                · rw [e4, e3, ← h]
                · rw [e4, e3]

theorem attempt_restore {look : Nat → Option (Manifest × List Idx)} {cur : Manifest × List Idx} {tx : Tx}
    {target v : Nat} {m : Manifest} {ix : List Idx} (hop : tx.op = .restore v)
    (h : attempt look cur tx target = .ok (m, ix)) :
    ∃ m0, look v = some (m0, ix) ∧ m.frags = m0.frags ∧ m.nextRow = m0.nextRow ∧ m.config = m0.config ∧
      m.schema = m0.schema ∧ m.version = target ∧ m.maxFrag = max m0.maxFrag (maxId m0.frags) ∧
      m.rflags = flagsOf m0.frags tx.stable ∧
      m.wflags = flagsOf m0.frags tx.stable ||| (if m0.config.isEmpty then 0 else 8) ∧
      ((m.frags.any (fun f => f.rowIds.isSome) || tx.stable) = true → ∀ f ∈ m.frags, f.rowIds.isSome = true) ∧
      maxId m.frags < U32 := by
  unfold attempt at h
  rw [hop] at h
  dsimp only at h
  cases hl : look v with
  | none => rw [hl] at h; cases h
  | some x =>
    obtain ⟨m0, ix0⟩ := x
    rw [hl] at h
    dsimp only at h
    cases hf : finish { restoreManifest m0 tx.uuid with version := target } tx.stable with
    | error e => rw [hf] at h; cases h
    | ok m1 =>
      rw [hf] at h
      simp only [Except.ok.injEq, Prod.mk.injEq] at h
      obtain ⟨h1, h2⟩ := h
      subst h1; subst h2
      unfold finish at hf
      split at hf
      · cases hf
      · rename_i m3 hf3
        obtain ⟨e3, a3⟩ := applyFlags_ok hf3
        obtain ⟨e4, a4⟩ := updateMax_ok hf
        refine ⟨m0, rfl, ?_⟩
        rw [e3] at a4
        rw [e4, e3]
        exact ⟨rfl, rfl, rfl, rfl, rfl, rfl, rfl, rfl, a3, a4⟩

theorem attempt_build {look : Nat → Option (Manifest × List Idx)} {cur : Manifest × List Idx} {tx : Tx}
    {target : Nat} {m : Manifest} {ix : List Idx} (hop : ∀ v, tx.op ≠ .restore v)
    (h : attempt look cur tx target = .ok (m, ix)) :
    Built (some cur.1) cur.2 tx m ix ∧ m.version = target := by
  have h' : (match buildManifest tx (some cur.1) cur.2 tx.uuid with
      | .error e => .error e
      | .ok (m, ix) =>
        match finish { m with version := target } tx.stable with
        | .error e => .error e
        | .ok m => .ok (m, ix) : Except Err (Manifest × List Idx)) = .ok (m, ix) := by
    unfold attempt at h
    cases hh : tx.op with
    | restore v => exact absurd hh (hop v)
    | _ => rw [hh] at h; exact h
  cases hb : buildManifest tx (some cur.1) cur.2 tx.uuid with
  | error e => rw [hb] at h'; cases h'
  | ok x =>
    obtain ⟨m0, ix0⟩ := x
    rw [hb] at h'
    dsimp only at h'
    cases hf : finish { m0 with version := target } tx.stable with
    | error e => rw [hf] at h'; cases h'
    | ok m1 =>
      rw [hf] at h'
      simp only [Except.ok.injEq, Prod.mk.injEq] at h'
      obtain ⟨h1, h2⟩ := h'
      subst h1; subst h2
      exact build_finish hb target hf

theorem attemptNew_build {tx : Tx} {m : Manifest} {ix : List Idx} (h : attemptNew tx = .ok (m, ix)) :
    Built none [] tx m ix := by
  unfold attemptNew at h
  cases hb : buildManifest tx none [] tx.uuid with
  | error e => rw [hb] at h; cases h
  | ok x =>
    obtain ⟨m0, ix0⟩ := x
    rw [hb] at h
    dsimp only at h
    cases hf : finish m0 tx.stable with
    | error e => rw [hf] at h; cases h
    | ok m1 =>
      rw [hf] at h
      simp only [Except.ok.injEq, Prod.mk.injEq] at h
      obtain ⟨h1, h2⟩ := h
      subst h1; subst h2
      exact (build_finish hb m0.version hf).1

end Verif.Txn
