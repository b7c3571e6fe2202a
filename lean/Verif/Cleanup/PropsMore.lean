import Verif.Cleanup.Props
/-!
# C23, continued: what is reclaimed, concurrent commits, and where the code disagrees
-/
namespace Verif.Cleanup
open Verif.Naming (Name showNat)

theorem takeWhile_notMem {e : Name} {r : Name} (h : '.' ∉ e) :
    (e ++ '.' :: r).takeWhile (fun c => decide (c ≠ '.')) = e := by
  induction e with
  | nil => simp
  | cons c e ih =>
    simp only [List.mem_cons, not_or] at h
    rw [List.cons_append, List.takeWhile_cons_of_pos (by simpa using Ne.symm h.1), ih h.2]

theorem extension_of {a x e : Name} (h : '.' ∉ e) (hne : e ≠ []) : extension [a, x ++ '.' :: e] = some e := by
  have hr : (x ++ '.' :: e).reverse = e.reverse ++ '.' :: x.reverse := by simp
  simp only [extension, List.getLast?_cons_cons, List.getLast?_singleton]
  rw [if_pos (by simp)]
  rw [hr, takeWhile_notMem (by simpa using h), List.reverse_reverse, if_neg hne]

theorem extension_delPath (d : Del) : extension (delPath d) = some (if d.bin then eBin else eArrow) := by
  unfold delPath
  apply extension_of
  · cases d.bin <;> decide
  · cases d.bin <;> decide

/-- The files a dataset is made of, by where they are and how they are named. -/
inductive OwnFile : Path → Prop
  | data {n : Name} : extension [sData, n] = some eLance → OwnFile [sData, n]
  | del {n e : Name} : (e = eArrow ∨ e = eBin) → extension [sDels, n] = some e → OwnFile [sDels, n]
  | tx {n : Name} : extension [sTx, n] = some eTxn → OwnFile [sTx, n]
  | idx {u : Name} {rest : Path} : OwnFile (sIdx :: u :: rest)

theorem needs_data {m : Man} {n : Name} (hm : ∃ x : Name, m.path = [sVersions, x]) (h : Needs m [sData, n]) :
    n ∈ m.data := by
  generalize hq : ([sData, n] : Path) = q at h
  cases h with
  | manifest => obtain ⟨x, e⟩ := hm; rw [e] at hq; exact absurd (List.cons.inj hq).1 (by decide)
  | data h => cases hq; exact h
  | del h => exact absurd (List.cons.inj hq).1 (by decide)
  | tx h => exact absurd (List.cons.inj hq).1 (by decide)
  | idx h => exact absurd (List.cons.inj hq).1 (by decide)

theorem needs_del {m : Man} {n : Name} (hm : ∃ x : Name, m.path = [sVersions, x]) (h : Needs m [sDels, n]) :
    ∃ d ∈ m.dels, delPath d = [sDels, n] := by
  generalize hq : ([sDels, n] : Path) = q at h
  cases h with
  | manifest => obtain ⟨x, e⟩ := hm; rw [e] at hq; exact absurd (List.cons.inj hq).1 (by decide)
  | data h => exact absurd (List.cons.inj hq).1 (by decide)
  | del h => exact ⟨_, h, hq.symm ▸ rfl⟩
  | tx h => exact absurd (List.cons.inj hq).1 (by decide)
  | idx h => exact absurd (List.cons.inj hq).1 (by decide)

theorem needs_tx {m : Man} {n : Name} (hm : ∃ x : Name, m.path = [sVersions, x]) (h : Needs m [sTx, n]) :
    m.tx = some n := by
  generalize hq : ([sTx, n] : Path) = q at h
  cases h with
  | manifest => obtain ⟨x, e⟩ := hm; rw [e] at hq; exact absurd (List.cons.inj hq).1 (by decide)
  | data h => exact absurd (List.cons.inj hq).1 (by decide)
  | del h => exact absurd (List.cons.inj hq).1 (by decide)
  | tx h => cases hq; exact h
  | idx h => exact absurd (List.cons.inj hq).1 (by decide)

theorem needs_idx {m : Man} {u : Name} {rest : Path} (hm : ∃ x : Name, m.path = [sVersions, x])
    (h : Needs m (sIdx :: u :: rest)) : u ∈ m.idx := by
  generalize hq : (sIdx :: u :: rest : Path) = q at h
  cases h with
  | manifest => obtain ⟨x, e⟩ := hm; rw [e] at hq; exact absurd (List.cons.inj hq).1 (by decide)
  | data h => exact absurd (List.cons.inj hq).1 (by decide)
  | del h => exact absurd (List.cons.inj hq).1 (by decide)
  | tx h => exact absurd (List.cons.inj hq).1 (by decide)
  | idx h => cases hq; exact h

theorem mem_drop {c : Cfg} {tags : List Nat} {mans : List Man} {m : Man} (hm : m ∈ mans) (hk : ¬ Kept c tags m) :
    m ∈ mans.filter (fun m => !inWorkingSet c tags m) := by
  refine List.mem_filter.2 ⟨hm, ?_⟩
  have : ¬ inWorkingSet c tags m = true := fun h => hk ((inWorkingSet_iff c tags m).1 h)
  simpa using this

theorem kept_of_mem {c : Cfg} {tags : List Nat} {mans : List Man} {m : Man}
    (h : m ∈ mans.filter (inWorkingSet c tags)) : m ∈ mans ∧ Kept c tags m :=
  ⟨(List.mem_filter.1 h).1, (inWorkingSet_iff c tags m).1 (List.mem_filter.1 h).2⟩

theorem stale_of {α : Type} [DecidableEq α] {b : Bool} {ref ver : List α} {x : α} (h1 : x ∉ ref)
    (h2 : b = false ∨ x ∈ ver) : stale b ref ver x = true := by
  unfold stale
  rw [if_neg h1]
  rcases h2 with h2 | h2 <;> simp [h2]

/-- A file of the dataset that no kept version needs is removable once it is verified or old. -/
theorem removable_of (c : Cfg) (tags : List Nat) (mans : List Man) (hl : Listed mans) (p : Path) (hp : OwnFile p)
    (hno : ∀ m ∈ mans, Kept c tags m → ¬ Needs m p) (b : Bool)
    (hb : b = false ∨ ∃ m ∈ mans, Needs m p) : removable (inspect c tags mans) b p = true := by
  have hpath : ∀ m ∈ mans, ∃ x : Name, m.path = [sVersions, x] := fun m hm =>
    let ⟨n, h, _⟩ := hl.1 m hm; ⟨n, h⟩
  cases hp with
  | @data n he =>
    have hr : [sData, n] ∉ (inspect c tags mans).refData := by
      intro hx
      obtain ⟨m, hm, hd⟩ := List.mem_flatMap.1 hx
      obtain ⟨n', hn, e⟩ := List.mem_map.1 hd
      exact hno m (kept_of_mem hm).1 (kept_of_mem hm).2 (e ▸ .data hn)
    have hv : b = false ∨ [sData, n] ∈ (inspect c tags mans).verData := by
      refine hb.imp id ?_
      rintro ⟨m, hm, hn⟩
      exact List.mem_flatMap.2 ⟨m, mem_drop hm (fun hk => hno m hm hk hn),
        List.mem_map.2 ⟨n, needs_data (hpath m hm) hn, rfl⟩⟩
    have ht : isTmp [sData, n] = false := not_isTmp (by decide)
    have hi : startsWith [sData, n] sIdx = false := by simp [startsWith]; decide
    have hs : startsWith [sData, n] sData = true := by simp [startsWith]
    simp [removable, ht, hi, extVerdict, he, hs, stale_of hr hv]
  | @del n e hee he =>
    have hr : [sDels, n] ∉ (inspect c tags mans).refDels := by
      intro hx
      obtain ⟨m, hm, hd⟩ := List.mem_flatMap.1 hx
      obtain ⟨n', hn, e'⟩ := List.mem_map.1 hd
      exact hno m (kept_of_mem hm).1 (kept_of_mem hm).2 (e' ▸ .del hn)
    have hv : b = false ∨ [sDels, n] ∈ (inspect c tags mans).verDels := by
      refine hb.imp id ?_
      rintro ⟨m, hm, hn⟩
      obtain ⟨d, hd, e'⟩ := needs_del (hpath m hm) hn
      exact List.mem_flatMap.2 ⟨m, mem_drop hm (fun hk => hno m hm hk hn), List.mem_map.2 ⟨d, hd, e'⟩⟩
    have ht : isTmp [sDels, n] = false := not_isTmp (by decide)
    have hi : startsWith [sDels, n] sIdx = false := by simp [startsWith]; decide
    have hs : startsWith [sDels, n] sDels = true := by simp [startsWith]
    have n1 : ¬ e = eLance := by rcases hee with rfl | rfl <;> decide
    have n2 : ¬ e = eManifest := by rcases hee with rfl | rfl <;> decide
    simp [removable, ht, hi, extVerdict, he, hs, stale_of hr hv, n1, n2, hee]
  | @tx n he =>
    have hr : [sTx, n] ∉ (inspect c tags mans).refTx := by
      intro hx
      obtain ⟨m, hm, hd⟩ := List.mem_flatMap.1 hx
      obtain ⟨n', hn, e'⟩ := List.mem_map.1 hd
      exact hno m (kept_of_mem hm).1 (kept_of_mem hm).2 (e' ▸ .tx (by simpa using hn))
    have hv : b = false ∨ [sTx, n] ∈ (inspect c tags mans).verTx := by
      refine hb.imp id ?_
      rintro ⟨m, hm, hn⟩
      exact List.mem_flatMap.2 ⟨m, mem_drop hm (fun hk => hno m hm hk hn),
        List.mem_map.2 ⟨n, by simp [needs_tx (hpath m hm) hn], rfl⟩⟩
    have ht : isTmp [sTx, n] = false := not_isTmp (by decide)
    have hi : startsWith [sTx, n] sIdx = false := by simp [startsWith]; decide
    have hs : startsWith [sTx, n] sTx = true := by simp [startsWith]
    have n1 : ¬ eTxn = eLance := by decide
    have n2 : ¬ eTxn = eManifest := by decide
    have n3 : ¬ eTxn = eArrow := by decide
    have n4 : ¬ eTxn = eBin := by decide
    simp [removable, ht, hi, extVerdict, he, hs, stale_of hr hv, n1, n2, n3, n4]
  | @idx u rest =>
    have hr : u ∉ (inspect c tags mans).refIdx := by
      intro hx
      obtain ⟨m, hm, hd⟩ := List.mem_flatMap.1 hx
      exact hno m (kept_of_mem hm).1 (kept_of_mem hm).2 (.idx hd)
    have hv : b = false ∨ u ∈ (inspect c tags mans).verIdx := by
      refine hb.imp id ?_
      rintro ⟨m, hm, hn⟩
      exact List.mem_flatMap.2 ⟨m, mem_drop hm (fun hk => hno m hm hk hn), needs_idx (hpath m hm) hn⟩
    have ht : isTmp (sIdx :: u :: rest) = false := not_isTmp (by decide)
    have hi : startsWith (sIdx :: u :: rest) sIdx = true := by simp [startsWith]
    have hx : (!b || decide (u ∈ (inspect c tags mans).verIdx)) = true := by
      rcases hv with hv | hv <;> simp [hv]
    simp only [removable, ht, hi, Bool.false_eq_true, if_false, if_true, idxVerdict, if_neg hr, hx]

/-- C23, the purpose of cleanup: a file older than the cut-off that no kept version needs is removed, as long as
a dropped version is known to have used it, or it is more than seven days old, or the user says nobody is
writing. -/
theorem C23_reclaims (c : Cfg) (tags : List Nat) (mans : List Man) (objs : List Obj) (hl : Listed mans)
    (rm : List Path) (hr : run c tags mans objs = some rm) (o : Obj) (ho : o ∈ objs) (hp : OwnFile o.path)
    (hold : o.mtime < c.before) (hno : ∀ m ∈ mans, Kept c tags m → ¬ Needs m o.path)
    (hb : c.unverified = true ∨ o.mtime < c.now - threshold ∨ ∃ m ∈ mans, Needs m o.path) : o.path ∈ rm := by
  unfold run at hr
  dsimp only at hr
  split at hr
  · cases hr
  · cases hr
    refine List.mem_append_left _ (List.mem_map.2 ⟨o, List.mem_filter.2 ⟨List.mem_filter.2 ⟨ho, by simpa using hold⟩, ?_⟩, rfl⟩)
    apply removable_of c tags mans hl o.path hp hno
    rcases hb with h | h | h
    · exact .inl (by simp [h])
    · refine .inl ?_
      have : ¬ (o.mtime ≥ c.now - threshold) := by omega
      simp [this]
    · exact .inr h

/-- C23: of the listed manifests, exactly those of dropped versions are removed. -/
theorem C23_manifests (c : Cfg) (tags : List Nat) (mans : List Man) (objs : List Obj) (hl : Listed mans)
    (rm : List Path) (hr : run c tags mans objs = some rm) (m : Man) (hm : m ∈ mans) :
    m.path ∈ rm ↔ ¬ Kept c tags m := by
  constructor
  · intro h hk
    exact C23_safe c tags mans objs hl rm hr m hm hk _ .manifest h
  · intro hk
    unfold run at hr
    dsimp only at hr
    split at hr
    · cases hr
    · cases hr
      exact List.mem_append_right _ (List.mem_map.2 ⟨m, mem_drop hm hk, rfl⟩)

/-- C23: nothing outside the listing and the listed manifests is touched. -/
theorem C23_only_listed (c : Cfg) (tags : List Nat) (mans : List Man) (objs : List Obj)
    (rm : List Path) (hr : run c tags mans objs = some rm) (p : Path) (hp : p ∈ rm) :
    (∃ o ∈ objs, o.path = p ∧ o.mtime < c.before) ∨
    ∃ m ∈ mans, m.path = p ∧ m.version < c.cur ∧ m.time < c.before ∧ m.version ∉ tags := by
  unfold run at hr
  dsimp only at hr
  split at hr
  · cases hr
  · cases hr
    rcases List.mem_append.1 hp with h | h
    · obtain ⟨o, ho, e⟩ := List.mem_map.1 h
      have h1 := List.mem_filter.1 (List.mem_filter.1 ho).1
      exact .inl ⟨o, h1.1, e, by simpa using h1.2⟩
    · obtain ⟨m, hm, e⟩ := List.mem_map.1 h
      have h1 := List.mem_filter.1 hm
      have : ¬ Kept c tags m := fun hk => by
        have := (inWorkingSet_iff c tags m).2 hk
        simp [this] at h1
      simp only [Kept, not_or] at this
      exact .inr ⟨m, h1.1, e, by omega, by omega, this.2.1⟩

/-! ## Commits made while cleanup runs -/

/-- C23 for a version committed by somebody else after the manifests were read: none of its files is removed,
provided each is used by a kept version or is new. -/
theorem C23_concurrent_partial (c : Cfg) (tags : List Nat) (mans : List Man) (objs : List Obj) (hl : Listed mans)
    (rm : List Path) (hr : run c tags mans objs = some rm) (hu : c.unverified = false) (m' : Man)
    (hfiles : ∀ p, Needs m' p → (∃ m ∈ mans, Kept c tags m ∧ Needs m p) ∨
      ((∀ m ∈ mans, ¬ Needs m p) ∧ (∀ a r, p = a :: r → sIdx.isPrefixOf a = true → a = sIdx) ∧
        ∀ o ∈ objs, o.path = p → c.now - threshold ≤ o.mtime)) (p : Path) (hp : Needs m' p) : p ∉ rm := by
  rcases hfiles p hp with ⟨m, hm, hk, hn⟩ | ⟨h1, h2, h3⟩
  · exact C23_safe c tags mans objs hl rm hr m hm hk p hn
  · exact C23_in_progress c tags mans objs rm hr hu p h2 h1 h3

/-- What one would like: a version committed meanwhile from the files of existing versions keeps its files. -/
def C23_concurrent_statement : Prop :=
  ∀ (c : Cfg) (tags : List Nat) (mans : List Man) (objs : List Obj) (rm : List Path) (m' : Man), Listed mans →
    run c tags mans objs = some rm → c.unverified = false → c.cur < m'.version →
    (∀ n ∈ m'.data, ∃ m ∈ mans, n ∈ m.data) → ∀ n ∈ m'.data, [sData, n] ∉ rm

private def fA : Name := ['a', '.', 'l', 'a', 'n', 'c', 'e']
private def fB : Name := ['b', '.', 'l', 'a', 'n', 'c', 'e']
private def mf (k : Char) : Path := [sVersions, [k, '.', 'm', 'a', 'n', 'i', 'f', 'e', 's', 't']]
private def day : Int := 86400000

private def xm1 : Man := ⟨mf '1', 1, 0, [fA], [⟨0, 1, 7, true⟩], some ['t', '.', 't', 'x', 'n'], [['u']]⟩
private def xm2 : Man := ⟨mf '2', 2, 20 * day, [fB], [], none, [['w']]⟩
private def xc : Cfg := ⟨2, 10 * day, 30 * day, false, false⟩
private def xo : List Obj :=
  [⟨mf '1', 0⟩, ⟨mf '2', 20 * day⟩, ⟨[sData, fA], 0⟩, ⟨[sData, fB], 0⟩, ⟨[sIdx, ['u'], ['x']], 0⟩, ⟨[sIdx, ['w'], ['x']], 0⟩]

private theorem xlisted (l : List Man) (h : l = [xm1, xm2]) : Listed l := by
  subst h
  refine ⟨?_, ?_⟩
  · intro m hm
    simp only [List.mem_cons, List.not_mem_nil, or_false] at hm
    rcases hm with rfl | rfl
    · exact ⟨_, rfl, by decide, by decide⟩
    · exact ⟨_, rfl, by decide, by decide⟩
  · intro m hm m' hm'
    simp only [List.mem_cons, List.not_mem_nil, or_false] at hm hm'
    rcases hm with rfl | rfl <;> rcases hm' with rfl | rfl <;> first | (intro; rfl) | (intro h; exact absurd h (by decide))

/-- A case in which the theorems above say something: version 1 is dropped, version 2 kept. -/
private theorem xrun : run xc [] [xm1, xm2] xo = some [[sData, fA], [sIdx, ['u'], ['x']], mf '1'] := by decide +kernel

example : [sData, fB] ∉ ([[sData, fA], [sIdx, ['u'], ['x']], mf '1'] : List Path) :=
  C23_safe xc [] _ xo (xlisted _ rfl) _ xrun xm2 (by simp) (.inl (by decide)) _ (.data (by simp [xm2]))

example : [sData, fA] ∈ ([[sData, fA], [sIdx, ['u'], ['x']], mf '1'] : List Path) :=
  C23_reclaims xc [] _ xo (xlisted _ rfl) _ xrun ⟨[sData, fA], 0⟩ (by simp [xo]) (.data (by decide)) (by decide)
    (by
      intro m hm hk hn
      simp only [List.mem_cons, List.not_mem_nil, or_false] at hm
      rcases hm with rfl | rfl
      · simp [Kept, xc, xm1, day] at hk
      · have := needs_data ⟨_, rfl⟩ hn
        exact absurd this (by decide))
    (.inr (.inl (by decide)))

/-- Restoring an old version while cleanup runs: the restored version's file is removed. -/
theorem C23_concurrent_violated : ¬ C23_concurrent_statement := by
  intro h
  refine h xc [] [xm1, xm2] xo _ ⟨mf '3', 3, 30 * day, [fA], [], none, []⟩ (xlisted _ rfl) xrun rfl (by decide) ?_
    fA (by simp) (by simp)
  intro n hn
  exact ⟨xm1, by simp, by simpa [xm1] using hn⟩

/-- A version tagged by the time cleanup removes files keeps its manifest. -/
def C23_tagged_statement : Prop :=
  ∀ (c : Cfg) (tagsListed tagsNow : List Nat) (mans : List Man) (objs : List Obj) (rm : List Path), Listed mans →
    run c tagsListed mans objs = some rm → (∀ v ∈ tagsListed, v ∈ tagsNow) →
    ∀ m ∈ mans, m.version ∈ tagsNow → m.path ∉ rm

/-- A tag created after the tags were listed does not protect its version (cleanup.rs:133). -/
theorem C23_tagged_violated : ¬ C23_tagged_statement := by
  intro h
  exact h xc [] [1] [xm1, xm2] xo _ (xlisted _ rfl) xrun (by simp) xm1 (by simp) (by decide) (by decide)

theorem C23_tagged_partial (c : Cfg) (tags : List Nat) (mans : List Man) (objs : List Obj) (rm : List Path)
    (hl : Listed mans) (hr : run c tags mans objs = some rm) (m : Man) (hm : m ∈ mans) (ht : m.version ∈ tags) :
    ∀ p, Needs m p → p ∉ rm := fun p hp => C23_safe c tags mans objs hl rm hr m hm (.inr (.inl ht)) p hp

/-! ## The error about tagged versions -/

/-- "If true, return an Error if a tagged version is old" (cleanup.rs:86): cleanup fails only when a tagged
version would otherwise have been removed. -/
def C23_tag_error_statement : Prop :=
  ∀ (c : Cfg) (tags : List Nat) (mans : List Man) (objs : List Obj), run c tags mans objs = none →
    ∃ m ∈ mans, m.version ∈ tags ∧ ¬ Kept c [] m

/-- The code does not ask whether the tagged version is old (cleanup.rs:186-188): tagging the latest version is
enough to make cleanup fail. -/
theorem C23_tag_error_violated : ¬ C23_tag_error_statement := by
  intro h
  obtain ⟨m, hm, ht, hk⟩ := h { xc with errTagged := true } [2] [xm1, xm2] xo (by decide +kernel)
  simp only [List.mem_cons, List.not_mem_nil, or_false] at hm
  rcases hm with rfl | rfl
  · exact absurd ht (by decide)
  · exact hk (.inl (by decide))

/-- C23: exactly when cleanup fails over tags. -/
theorem C23_tag_error_partial (c : Cfg) (tags : List Nat) (mans : List Man) (objs : List Obj) :
    run c tags mans objs = none ↔ c.errTagged = true ∧ ∃ m ∈ mans, m.version ∈ tags := by
  unfold run
  dsimp only
  have : (inspect c tags mans).tagged.isEmpty = false ↔ ∃ m ∈ mans, m.version ∈ tags := by
    simp only [inspect, List.isEmpty_eq_false_iff, ne_eq, List.map_eq_nil_iff, List.filter_eq_nil_iff,
      List.contains_iff_mem]
    constructor
    · intro h
      apply Classical.byContradiction
      intro hn
      exact h (fun m hm ht => hn ⟨m, hm, ht⟩)
    · rintro ⟨m, hm, ht⟩ h
      exact h m hm ht
  split
  · rename_i h
    simp only [Bool.and_eq_true, Bool.not_eq_true'] at h
    exact Iff.intro (fun _ => ⟨h.1, this.1 h.2⟩) (fun _ => rfl)
  · rename_i h
    simp only [Bool.and_eq_true, Bool.not_eq_true', not_and] at h
    exact Iff.intro (fun e => nomatch e) (fun h' => absurd (this.2 h'.2) (h h'.1))

/-! ## Leftovers and foreign files -/

/-- With nobody writing, every file under `_versions` that no listed version uses is reclaimed. -/
def C23_leftover_statement : Prop :=
  ∀ (c : Cfg) (tags : List Nat) (mans : List Man) (objs : List Obj) (rm : List Path), Listed mans →
    run c tags mans objs = some rm → c.unverified = true →
    ∀ o ∈ objs, o.path.head? = some sVersions → o.mtime < c.before → (∀ m ∈ mans, ¬ Needs m o.path) → o.path ∈ rm

/-- A staging manifest of the external handler (`3.manifest-uuid`, external_manifest.rs) left by a crash is
never reclaimed: only names that begin with `.tmp` are. -/
theorem C23_leftover_violated : ¬ C23_leftover_statement := by
  intro h
  have hrun : run { xc with unverified := true } [] [xm1, xm2]
      [⟨[sVersions, ['3', '.', 'm', 'a', 'n', 'i', 'f', 'e', 's', 't', '-', 'u']], 0⟩] = some [mf '1'] := by
    decide +kernel
  have := h _ [] [xm1, xm2] _ _ (xlisted _ rfl) hrun rfl _ (List.mem_cons_self ..) rfl (by decide) (by
    intro m hm hn
    generalize hq : ([sVersions, ['3', '.', 'm', 'a', 'n', 'i', 'f', 'e', 's', 't', '-', 'u']] : Path) = q at hn
    cases hn with
    | manifest =>
      simp only [List.mem_cons, List.not_mem_nil, or_false] at hm
      rcases hm with rfl | rfl <;> exact absurd hq (by decide)
    | data h => exact absurd (List.cons.inj hq).1 (by decide)
    | del h => exact absurd (List.cons.inj hq).1 (by decide)
    | tx h => exact absurd (List.cons.inj hq).1 (by decide)
    | idx h => exact absurd (List.cons.inj hq).1 (by decide))
  exact absurd this (by decide)

/-- What is reclaimed of leftovers under `_versions`: the temporary files of the renaming handler. -/
theorem C23_leftover_partial (c : Cfg) (tags : List Nat) (mans : List Man) (objs : List Obj) (rm : List Path)
    (hr : run c tags mans objs = some rm) (o : Obj) (ho : o ∈ objs) (n : Name) (rest : Path)
    (hp : o.path = sVersions :: n :: rest) (ht : sTmp.isPrefixOf n = true) (hold : o.mtime < c.before)
    (hb : c.unverified = true ∨ o.mtime < c.now - threshold) : o.path ∈ rm := by
  unfold run at hr
  dsimp only at hr
  split at hr
  · cases hr
  · cases hr
    refine List.mem_append_left _ (List.mem_map.2 ⟨o, List.mem_filter.2 ⟨List.mem_filter.2 ⟨ho, by simpa using hold⟩, ?_⟩, rfl⟩)
    have hb' : (!c.unverified && decide (o.mtime ≥ c.now - threshold)) = false := by
      rcases hb with h | h
      · simp [h]
      · have : ¬ (o.mtime ≥ c.now - threshold) := by omega
        simp [this]
    have : isTmp o.path = true := by rw [hp]; simp [isTmp, ht]
    simp [removable, this, hb']

/-- Only files in the directories of the format are removed. -/
def C23_foreign_statement : Prop :=
  ∀ (c : Cfg) (tags : List Nat) (mans : List Man) (objs : List Obj) (rm : List Path), Listed mans →
    run c tags mans objs = some rm → ∀ p ∈ rm, ∃ d ∈ [sData, sDels, sTx, sIdx, sVersions], p.head? = some d

/-- The directory is tested as a text prefix: `data_backup/x.lance` is taken for an unused data file. -/
theorem C23_foreign_violated : ¬ C23_foreign_statement := by
  intro h
  have hrun : run xc [] [xm1, xm2]
      [⟨[['d', 'a', 't', 'a', '_', 'b'], ['x', '.', 'l', 'a', 'n', 'c', 'e']], 0⟩] =
      some [[['d', 'a', 't', 'a', '_', 'b'], ['x', '.', 'l', 'a', 'n', 'c', 'e']], mf '1'] := by decide +kernel
  have := h _ [] [xm1, xm2] _ _ (xlisted _ rfl) hrun _ (List.mem_cons_self ..)
  exact absurd this (by decide)

theorem C23_foreign_partial (c : Cfg) (tags : List Nat) (mans : List Man) (objs : List Obj) (rm : List Path)
    (hl : Listed mans) (hr : run c tags mans objs = some rm) (p : Path) (hp : p ∈ rm) :
    ∃ d ∈ [sData, sDels, sTx, sIdx, sVersions], ∃ a r, p = a :: r ∧ d.isPrefixOf a = true := by
  have key : ∀ i b q, removable i b q = true →
      ∃ d ∈ [sData, sDels, sTx, sIdx, sVersions], ∃ a r, q = a :: r ∧ d.isPrefixOf a = true := by
    intro i b q h
    have of : ∀ s ∈ [sData, sDels, sTx, sIdx, sVersions], startsWith q s = true →
        ∃ d ∈ [sData, sDels, sTx, sIdx, sVersions], ∃ a r, q = a :: r ∧ d.isPrefixOf a = true := by
      intro s hs hq
      cases q with
      | nil => simp [startsWith] at hq
      | cons a r => exact ⟨s, hs, a, r, rfl, hq⟩
    have ext : extVerdict i b q = true →
        ∃ d ∈ [sData, sDels, sTx, sIdx, sVersions], ∃ a r, q = a :: r ∧ d.isPrefixOf a = true := by
      intro h
      unfold extVerdict at h
      split at h
      · cases h
      · repeat' split at h
        all_goals first
          | cases h; done
          | (rename_i hs; exact of _ (by simp) hs)
    unfold removable at h
    split at h
    · rename_i ht
      apply of sVersions (by simp)
      cases q with
      | nil => simp [isTmp] at ht
      | cons a r =>
        cases r with
        | nil => simp [isTmp] at ht
        | cons n r =>
          simp only [isTmp, Bool.and_eq_true, decide_eq_true_eq] at ht
          simp [startsWith, ht.1]
    · split at h
      · rename_i hi
        exact of sIdx (by simp) hi
      · exact ext h
  unfold run at hr
  dsimp only at hr
  split at hr
  · cases hr
  · cases hr
    rcases List.mem_append.1 hp with h | h
    · obtain ⟨o, ho, rfl⟩ := List.mem_map.1 h
      exact key _ _ _ (List.mem_filter.1 ho).2
    · obtain ⟨m, hm, rfl⟩ := List.mem_map.1 h
      obtain ⟨n, e, _⟩ := hl.1 m (List.mem_filter.1 hm).1
      exact ⟨sVersions, by simp, sVersions, [n], e, by decide⟩

end Verif.Cleanup
