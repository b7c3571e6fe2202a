import Verif.Cleanup.Lemmas
/-!
# C23: removing old versions
-/
namespace Verif.Cleanup
open Verif.Naming (Name)

/-- Versions a user expects to keep: the open version and newer ones, tagged ones, and those written at or
after the cut-off. -/
def Kept (c : Cfg) (tags : List Nat) (m : Man) : Prop :=
  c.cur ≤ m.version ∨ m.version ∈ tags ∨ c.before ≤ m.time

/-- The files that reading a version needs. -/
inductive Needs (m : Man) : Path → Prop
  | manifest : Needs m m.path
  | data {n : Name} : n ∈ m.data → Needs m [sData, n]
  | del {d : Del} : d ∈ m.dels → Needs m (delPath d)
  | tx {n : Name} : m.tx = some n → Needs m [sTx, n]
  | idx {u : Name} {rest : Path} : u ∈ m.idx → Needs m (sIdx :: u :: rest)

/-- The manifests in the listing: their paths are version files, and no two share one. -/
def Listed (mans : List Man) : Prop :=
  (∀ m ∈ mans, ∃ n : Name, m.path = [sVersions, n] ∧ extension m.path = some eManifest ∧ sTmp.isPrefixOf n = false) ∧
  ∀ m ∈ mans, ∀ m' ∈ mans, m.path = m'.path → m = m'

theorem inWorkingSet_iff (c : Cfg) (tags : List Nat) (m : Man) :
    inWorkingSet c tags m = true ↔ Kept c tags m := by
  simp only [inWorkingSet, Kept, Bool.or_eq_true, decide_eq_true_eq, List.contains_iff_mem, ge_iff_le, or_assoc]
  constructor <;> (rintro (h | h | h) <;> simp [h])

theorem not_isTmp {d : Name} {r : Path} (h : d ≠ sVersions) : isTmp (d :: r) = false := by
  cases r with
  | nil => rfl
  | cons n r => simp [isTmp, h]

theorem mem_keep {c : Cfg} {tags : List Nat} {mans : List Man} {m : Man} (hm : m ∈ mans) (hk : Kept c tags m) :
    m ∈ mans.filter (inWorkingSet c tags) := List.mem_filter.2 ⟨hm, (inWorkingSet_iff c tags m).2 hk⟩

/-- What a kept manifest refers to is never removable, however old the object. -/
theorem needed_not_removable (c : Cfg) (tags : List Nat) (mans : List Man) (hl : Listed mans) (m : Man)
    (hm : m ∈ mans) (hk : Kept c tags m) (p : Path) (hp : Needs m p) (b : Bool) :
    removable (inspect c tags mans) b p = false := by
  have hmk := mem_keep hm hk
  cases hp with
  | manifest =>
    obtain ⟨n, h1, h2, h3⟩ := hl.1 m hm
    have ht : isTmp m.path = false := by rw [h1]; simp [isTmp, h3]
    have hi : startsWith m.path sIdx = false := by rw [h1]; simp [startsWith]; decide
    have he : eManifest ≠ eLance := by decide
    simp [removable, ht, hi, extVerdict, h2, he]
  | @data n hn =>
    have hr : [sData, n] ∈ (inspect c tags mans).refData :=
      List.mem_flatMap.2 ⟨m, hmk, List.mem_map.2 ⟨n, hn, rfl⟩⟩
    have ht : isTmp [sData, n] = false := not_isTmp (by decide)
    have hi : startsWith [sData, n] sIdx = false := by simp [startsWith]; decide
    have hd : startsWith [sData, n] sDels = false := by simp [startsWith]; decide
    have hx : startsWith [sData, n] sTx = false := by simp [startsWith]; decide
    simp only [removable, ht, hi, Bool.false_eq_true, if_false, extVerdict, hd, hx]
    cases extension [sData, n] with
    | none => rfl
    | some e =>
      dsimp only
      repeat' split
      all_goals first | rfl | simp [stale, hr]
  | @del d hd =>
    have hr : delPath d ∈ (inspect c tags mans).refDels :=
      List.mem_flatMap.2 ⟨m, hmk, List.mem_map.2 ⟨d, hd, rfl⟩⟩
    have ht : isTmp (delPath d) = false := not_isTmp (by decide)
    have hi : startsWith (delPath d) sIdx = false := by simp [startsWith, delPath]; decide
    have hd' : startsWith (delPath d) sData = false := by simp [startsWith, delPath]; decide
    have hx : startsWith (delPath d) sTx = false := by simp [startsWith, delPath]; decide
    simp only [removable, ht, hi, Bool.false_eq_true, if_false, extVerdict, hd', hx]
    cases extension (delPath d) with
    | none => rfl
    | some e =>
      dsimp only
      repeat' split
      all_goals first | rfl | simp [stale, hr]
  | @tx n hn =>
    have hr : [sTx, n] ∈ (inspect c tags mans).refTx :=
      List.mem_flatMap.2 ⟨m, hmk, List.mem_map.2 ⟨n, by simp [hn], rfl⟩⟩
    have ht : isTmp [sTx, n] = false := not_isTmp (by decide)
    have hi : startsWith [sTx, n] sIdx = false := by simp [startsWith]; decide
    have hd' : startsWith [sTx, n] sData = false := by simp [startsWith]; decide
    have hx : startsWith [sTx, n] sDels = false := by simp [startsWith]; decide
    simp only [removable, ht, hi, Bool.false_eq_true, if_false, extVerdict, hd', hx]
    cases extension [sTx, n] with
    | none => rfl
    | some e =>
      dsimp only
      repeat' split
      all_goals first | rfl | simp [stale, hr]
  | @idx u rest hu =>
    have hr : u ∈ (inspect c tags mans).refIdx := List.mem_flatMap.2 ⟨m, hmk, hu⟩
    have ht : isTmp (sIdx :: u :: rest) = false := not_isTmp (by decide)
    have hi : startsWith (sIdx :: u :: rest) sIdx = true := by simp [startsWith]
    simp only [removable, ht, hi, Bool.false_eq_true, if_false, if_true, idxVerdict, if_pos hr]

/-- C23, safety: whatever the versions, tags, files, ages and options, no file that a kept version needs is
removed — and so none is at any point at which the removal is interrupted. -/
theorem C23_safe (c : Cfg) (tags : List Nat) (mans : List Man) (objs : List Obj) (hl : Listed mans)
    (rm : List Path) (hr : run c tags mans objs = some rm) (m : Man) (hm : m ∈ mans) (hk : Kept c tags m)
    (p : Path) (hp : Needs m p) : p ∉ rm := by
  unfold run at hr
  dsimp only at hr
  split at hr
  · cases hr
  · cases hr
    intro hmem
    rcases List.mem_append.1 hmem with h | h
    · obtain ⟨o, ho, rfl⟩ := List.mem_map.1 h
      have := (List.mem_filter.1 ho).2
      rw [needed_not_removable c tags mans hl m hm hk o.path hp] at this
      cases this
    · obtain ⟨m', hm', e⟩ := List.mem_map.1 h
      have hd := List.mem_filter.1 hm'
      have hnk : ¬ Kept c tags m' := by
        intro hk'
        have := (inWorkingSet_iff c tags m').2 hk'
        simp [this] at hd
      cases hp with
      | manifest =>
        have := hl.2 m' hd.1 m hm e
        subst this
        exact hnk hk
      | data hn =>
        obtain ⟨n', h1, _⟩ := hl.1 m' hd.1
        rw [h1] at e
        exact absurd (List.cons.inj e).1 (by decide)
      | del hn =>
        obtain ⟨n', h1, _⟩ := hl.1 m' hd.1
        rw [h1] at e
        exact absurd (List.cons.inj e).1 (by decide)
      | tx hn =>
        obtain ⟨n', h1, _⟩ := hl.1 m' hd.1
        rw [h1] at e
        exact absurd (List.cons.inj e).1 (by decide)
      | idx hn =>
        obtain ⟨n', h1, _⟩ := hl.1 m' hd.1
        rw [h1] at e
        exact absurd (List.cons.inj e).1 (by decide)

/-- C23: the newest version listed is always among the kept ones, as long as the open version is listed. -/
theorem C23_newest_kept (c : Cfg) (tags : List Nat) (mans : List Man) (m : Man)
    (hmax : ∀ m' ∈ mans, m'.version ≤ m.version) (hcur : ∃ m' ∈ mans, m'.version = c.cur) : Kept c tags m := by
  obtain ⟨m', h1, h2⟩ := hcur
  exact .inl (h2 ▸ hmax m' h1)

/-- C23: files that no listed version refers to are left alone for seven days, unless the user says that
nobody is writing.  (`hdir`: the dataset directory has no other directory whose name begins with `_indices`.) -/
theorem C23_in_progress (c : Cfg) (tags : List Nat) (mans : List Man) (objs : List Obj)
    (rm : List Path) (hr : run c tags mans objs = some rm) (hu : c.unverified = false) (p : Path)
    (hdir : ∀ a r, p = a :: r → sIdx.isPrefixOf a = true → a = sIdx)
    (hp : ∀ m ∈ mans, ¬ Needs m p) (hnew : ∀ o ∈ objs, o.path = p → c.now - threshold ≤ o.mtime) : p ∉ rm := by
  unfold run at hr
  dsimp only at hr
  split at hr
  · cases hr
  · cases hr
    intro hmem
    rcases List.mem_append.1 hmem with h | h
    · obtain ⟨o, ho, rfl⟩ := List.mem_map.1 h
      have ho' := List.mem_filter.1 ho
      have hobj := (List.mem_filter.1 ho'.1).1
      have hip : (!c.unverified && decide (o.mtime ≥ c.now - threshold)) = true := by
        simp [hu]; exact hnew o hobj rfl
      have hrm := ho'.2
      rw [hip] at hrm
      -- nothing verified refers to it
      have hver : ∀ m ∈ mans.filter (fun m => !inWorkingSet c tags m), m ∈ mans :=
        fun m hm => (List.mem_filter.1 hm).1
      have n1 : o.path ∉ (inspect c tags mans).verData := by
        intro hx
        obtain ⟨m, hm, hd⟩ := List.mem_flatMap.1 hx
        obtain ⟨n, hn, e⟩ := List.mem_map.1 hd
        exact hp m (hver m hm) (e ▸ .data hn)
      have n2 : o.path ∉ (inspect c tags mans).verDels := by
        intro hx
        obtain ⟨m, hm, hd⟩ := List.mem_flatMap.1 hx
        obtain ⟨n, hn, e⟩ := List.mem_map.1 hd
        exact hp m (hver m hm) (e ▸ .del hn)
      have n3 : o.path ∉ (inspect c tags mans).verTx := by
        intro hx
        obtain ⟨m, hm, hd⟩ := List.mem_flatMap.1 hx
        obtain ⟨n, hn, e⟩ := List.mem_map.1 hd
        exact hp m (hver m hm) (e ▸ .tx (by simpa using hn))
      have hev : extVerdict (inspect c tags mans) true o.path = false := by
        unfold extVerdict
        cases extension o.path with
        | none => rfl
        | some e =>
          dsimp only
          repeat' split
          all_goals first | rfl | (simp [stale, n1, n2, n3])
      unfold removable at hrm
      split at hrm
      · cases hrm
      · split at hrm
        · rename_i _ hst
          cases hpath : o.path with
          | nil => rw [hpath] at hst; simp [startsWith] at hst
          | cons a r =>
            cases r with
            | nil => simp [hpath, idxVerdict] at hrm
            | cons u rest =>
              have hidx : idxVerdict (inspect c tags mans) true o.path = some true → False := by
                intro hv
                rw [hpath] at hv
                simp only [idxVerdict] at hv
                split at hv
                · cases hv
                · split at hv
                  · rename_i _ hx
                    simp only [Bool.not_true, Bool.false_or, decide_eq_true_eq] at hx
                    obtain ⟨m, hm, hd⟩ := List.mem_flatMap.1 hx
                    have ha := hdir a (u :: rest) hpath (by simpa [hpath, startsWith] using hst)
                    exact hp m (hver m hm) (by rw [hpath, ha]; exact .idx hd)
                  · cases hv
              cases hv : idxVerdict (inspect c tags mans) true o.path with
              | none => rw [hv] at hrm; rw [hev] at hrm; cases hrm
              | some b =>
                rw [hv] at hrm
                dsimp only at hrm
                subst hrm
                exact hidx hv
        · rw [hev] at hrm; cases hrm
    · obtain ⟨m', hm', e⟩ := List.mem_map.1 h
      exact hp m' (List.mem_filter.1 hm').1 (e ▸ .manifest)

end Verif.Cleanup
