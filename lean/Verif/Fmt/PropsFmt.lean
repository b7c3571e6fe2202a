import Verif.Fmt.Model
/-!
# C101: all files of a dataset are of the storage version that the manifest says
-/
namespace Verif.Fmt

theorem parse_newFmt (v : V) : parse (newFmt v) = some v.resolve := by cases v <;> decide

theorem resolve_idem (v : V) : v.resolve.resolve = v.resolve := by cases v <;> rfl

theorem ofNumbers_resolve {f : File} {v : V} (h : ofNumbers f = some v) : v.resolve = v := by
  obtain ⟨a, b⟩ := f
  unfold ofNumbers at h
  split at h <;> first | (cases h; rfl) | cases h

theorem ofNumbers_written (v : V) : ofNumbers (written v) = some v.resolve := by cases v <;> rfl

/-- What is known after inferring a version. -/
theorem infer_some {frags : List (List File)} {v : V} (h : infer frags = some (some v)) :
    v.resolve = v ∧ ∀ f ∈ frags, ∀ x ∈ f, ofNumbers x = some v := by
  unfold infer at h
  split at h
  · cases h
  · split at h
    · cases h
    · rename_i sample _ w hw
      split at h
      · rename_i hall
        cases h
        refine ⟨ofNumbers_resolve hw, fun f hf x hx => ?_⟩
        have := List.all_eq_true.1 (List.all_eq_true.1 hall f hf) x hx
        simpa using this
      · cases h

theorem infer_none {frags : List (List File)} (h : infer frags = some none) : ∀ f ∈ frags, ∀ x ∈ f, False := by
  unfold infer at h
  split at h
  · rename_i hn
    intro f hf x hx
    cases hfind : frags.find? (fun f => !f.isEmpty) with
    | none =>
      have := List.find?_eq_none.1 hfind f hf
      cases f
      · cases hx
      · simp at this
    | some g =>
      rw [hfind] at hn
      have := List.find?_some hfind
      cases g
      · simp at this
      · simp at hn
  · split at h
    · cases h
    · split at h <;> cases h

theorem infer_all {frags : List (List File)} {v : V} (h : ∀ f ∈ frags, ∀ x ∈ f, ofNumbers x = some v) :
    infer frags = some none ∨ infer frags = some (some v) := by
  unfold infer
  cases hs : (frags.find? (fun f => !f.isEmpty)).bind List.head? with
  | none => exact .inl rfl
  | some s =>
    right
    obtain ⟨g, hg, hgs⟩ := Option.bind_eq_some_iff.1 hs
    have hs' : ofNumbers s = some v := h g (List.mem_of_find?_eq_some hg) s (List.mem_of_head? hgs)
    simp only [hs']
    rw [if_pos]
    exact List.all_eq_true.2 (fun f hf => List.all_eq_true.2 (fun x hx => by simp [h f hf x hx]))

/-- All files of a version are of one storage version, the one in the manifest, which is a definite one. -/
def Uniform (m : Man) : Prop :=
  ∃ v, parse m.fmt = some v ∧ v.resolve = v ∧ m.fmt = newFmt v ∧ ∀ f ∈ m.frags, ∀ x ∈ f, ofNumbers x = some v

theorem check_uniform {m m' : Man} (hf : ∃ v, v.resolve = v ∧ m.fmt = newFmt v) (h : check m = some m') : Uniform m' := by
  obtain ⟨w, hw, hm⟩ := hf
  unfold check at h
  split at h
  · cases h
  · rename_i v hv
    have hvw : v = w := by
      rw [hm, parse_newFmt, hw] at hv
      exact (Option.some.inj hv).symm
    subst hvw
    split at h
    · cases h
    · rename_i hi
      cases h
      exact ⟨v, hv, hw, hm, fun f hf x hx => (infer_none hi f hf x hx).elim⟩
    · rename_i actual hi
      obtain ⟨i1, i2⟩ := infer_some hi
      split at h
      · rename_i hl
        split at h
        · cases h
          exact ⟨actual, by simp only; rw [parse_newFmt, i1], i1, rfl, i2⟩
        · rename_i hr
          cases h
          have : actual = v := by
            subst hl
            cases actual <;> simp [V.rank] at hr ⊢
          subst this
          exact ⟨actual, hv, hw, hm, i2⟩
      · split at h
        · rename_i hav
          cases h
          subst hav
          exact ⟨actual, hv, hw, hm, i2⟩
        · cases h

theorem build_fmt {cur : Option Man} {ow : Bool} {frags : List (List File)} {asked : Option V} {m : Man}
    (hc : ∀ c, cur = some c → ∃ v, v.resolve = v ∧ c.fmt = newFmt v) (h : build cur ow frags asked = some m) :
    m.frags = frags ∧ (∃ v, v.resolve = v ∧ m.fmt = newFmt v) ∧ (cur = none → Uniform m) := by
  have key : ∀ a : Option V, (∀ v, a = some v → v.resolve = v) →
      buildWith cur ow frags a = some m →
      m.frags = frags ∧ (∃ v, v.resolve = v ∧ m.fmt = newFmt v) ∧ (cur = none → Uniform m) := by
    intro a ha h
    unfold buildWith at h
    cases cur with
    | none =>
      simp only at h
      obtain ⟨f, h1, h2⟩ := Option.map_eq_some_iff.1 h
      subst h2
      unfold fmtFromFiles at h1
      split at h1
      · cases h1
      · rename_i v hi
        obtain ⟨i1, i2⟩ := infer_some hi
        split at h1
        · cases h1
          exact ⟨rfl, ⟨v, i1, rfl⟩, fun _ => ⟨v, by simp only; rw [parse_newFmt, i1], i1, rfl, i2⟩⟩
        · cases h1
      · rename_i hi
        cases h1
        have hex : ∃ v, v.resolve = v ∧ (a.map newFmt).getD (newFmt .v20) = newFmt v := by
          cases a with
          | none => exact ⟨.v20, rfl, rfl⟩
          | some v => exact ⟨v, ha v rfl, rfl⟩
        refine ⟨rfl, hex, fun _ => ?_⟩
        obtain ⟨v, h1, h2⟩ := hex
        exact ⟨v, by simp only; rw [h2, parse_newFmt, h1], h1, h2, fun f hf x hx => (infer_none hi f hf x hx).elim⟩
    | some c =>
      simp only at h
      split at h
      · rename_i v
        split at h
        · cases h
          exact ⟨rfl, ⟨v, ha v rfl, rfl⟩, fun h => by cases h⟩
        · cases h
          exact ⟨rfl, hc c rfl, fun h => by cases h⟩
      · cases h
        exact ⟨rfl, hc c rfl, fun h => by cases h⟩
  unfold build at h
  cases asked with
  | none => exact key none (fun v hv => by cases hv) h
  | some v =>
    simp only [parse_newFmt, Option.bind_some] at h
    exact key (some v.resolve) (fun w hw => by cases hw; exact resolve_idem v) h

/-- **One version.**  Whatever fragments are committed, in whatever order and based on whatever version, with
any version asked for: all files of every version of the dataset are of one storage version, the one that the
manifest says. -/
theorem C101_one_version {h : List Man} (hr : Reach h) : ∀ m ∈ h, Uniform m := by
  induction hr with
  | create hc =>
    intro m' hm
    rw [List.mem_singleton] at hm
    subst hm
    simp only [commit, if_true] at hc
    exact (build_fmt (fun c h => by cases h) hc).2.2 rfl
  | commit hr hs hc ih =>
    intro m' hm
    rcases List.mem_append.1 hm with hm | hm
    · exact ih m' hm
    · rw [List.mem_singleton] at hm
      subst hm
      simp only [commit] at hc
      split at hc
      · cases hc
      · obtain ⟨b, h1, h2⟩ := Option.bind_eq_some_iff.1 hc
        refine check_uniform (build_fmt ?_ h1).2.1 h2
        intro c hcc
        cases hcc
        obtain ⟨v, _, hv, hf, _⟩ := ih _ (List.mem_append_right _ (List.mem_singleton.2 rfl))
        exact ⟨v, hv, hf⟩
  | restore hr hs hc ih =>
    intro m' hm
    rcases List.mem_append.1 hm with hm | hm
    · exact ih m' hm
    · rw [List.mem_singleton] at hm
      subst hm
      obtain ⟨v, _, hv, hf, _⟩ := ih _ hs
      exact check_uniform ⟨v, hv, hf⟩ hc

/-- So the files are read by the reader for the version of the dataset: a file is taken for a legacy file if
and only if the dataset is a legacy one. -/
theorem C101_readers {h : List Man} (hr : Reach h) {m : Man} (hm : m ∈ h) {f : List File} (hf : f ∈ m.frags) {x : File}
    (hx : x ∈ f) : isLegacyFile x = true ↔ parse m.fmt = some .legacy := by
  obtain ⟨v, hv, _, _, hall⟩ := C101_one_version hr m hm
  have h1 := hall f hf x hx
  rw [hv]
  obtain ⟨a, b⟩ := x
  unfold ofNumbers at h1
  split at h1 <;> first | (cases h1; simp_all [isLegacyFile]) | cases h1

theorem infer_written (v : V) (l : List (List File)) (hl : ∀ f ∈ l, ∀ x ∈ f, ofNumbers x = some v.resolve) (n : Nat) :
    ∀ f ∈ l ++ List.replicate n [written v], ∀ x ∈ f, ofNumbers x = some v.resolve := by
  intro f hf x hx
  rcases List.mem_append.1 hf with hf | hf
  · exact hl f hf x hx
  · rw [List.eq_of_mem_replicate hf, List.mem_singleton] at hx
    rw [hx, ofNumbers_written]

theorem check_ok {m : Man} {v : V} (hf : m.fmt = newFmt v) (hv : v.resolve = v)
    (hall : ∀ f ∈ m.frags, ∀ x ∈ f, ofNumbers x = some v) : check m = some m := by
  unfold check
  have hp : parse m.fmt = some v := by rw [hf, parse_newFmt, hv]
  rw [hp]
  simp only
  rcases infer_all hall with hi | hi
  · rw [hi]
  · rw [hi]
    simp only
    split
    · rw [if_neg (by omega)]
    · rfl

/-- **Writing data gives the version asked for.**  A new dataset has the version asked for, or 2.0; an
overwrite has the version asked for, or that of the dataset it replaces, whatever is committed in between;
an append to a dataset that has not changed keeps its version.  None of these fails, and all files written
are of that version. -/
theorem C101_insert {h : List Man} (hr : Reach h) (files : Nat) (asked : Option V) :
    (∀ mode,
      insert mode none none files asked = some ⟨newFmt (asked.getD .v20), List.replicate files [written (asked.getD .v20)]⟩) ∧
    (∀ s ∈ h, ∀ c ∈ h, ∃ v, insert .overwrite (some s) (some c) files asked = some ⟨newFmt v, List.replicate files [written v]⟩ ∧
      (∀ a, asked = some a → v = a) ∧ (asked = none → newFmt v = s.fmt)) ∧
    (∀ s ∈ h, ∃ v, insert .append (some s) (some s) files asked = some ⟨s.fmt, s.frags ++ List.replicate files [written v]⟩ ∧
      newFmt v = s.fmt) := by
  have hnil : ∀ v : V, ∀ f ∈ List.replicate files [written v], ∀ x ∈ f, ofNumbers x = some v.resolve := by
    intro v
    have := infer_written v [] (fun f hf => by cases hf) files
    simpa using this
  have hnew : ∀ v : V, build none true (List.replicate files [written v]) (some v) =
      some ⟨newFmt v, List.replicate files [written v]⟩ := by
    intro v
    unfold build
    simp only [parse_newFmt, Option.bind_some, buildWith]
    unfold fmtFromFiles
    have hnr : newFmt v.resolve = newFmt v := by unfold newFmt; rw [resolve_idem]
    rcases infer_all (hnil v) with hi | hi
    · rw [hi]; simp [hnr]
    · rw [hi]; simp [hnr]
  have hchk : ∀ (v : V) (l : List (List File)), (∀ f ∈ l, ∀ x ∈ f, ofNumbers x = some v.resolve) →
      check ⟨newFmt v, l⟩ = some ⟨newFmt v, l⟩ := fun v l hl =>
    check_ok (v := v.resolve) (by unfold newFmt; rw [resolve_idem]) (resolve_idem v) hl
  refine ⟨fun mode => ?_, fun s hs c hc => ?_, fun s hs => ?_⟩
  · cases mode <;> simp [insert, writeVersion, commit, hnew]
  · obtain ⟨w, hw, hwr, hsf, _⟩ := C101_one_version hr s hs
    have hv : ∃ v, writeVersion .overwrite (some s) asked = some v ∧ (∀ a, asked = some a → v = a) ∧
        (asked = none → newFmt v = s.fmt) := by
      cases asked with
      | some a => exact ⟨a, rfl, fun b hb => by cases hb; rfl, fun h => by cases h⟩
      | none => exact ⟨w, hw, (fun b hb => (nomatch hb)), fun _ => hsf.symm⟩
    obtain ⟨v, h1, h2⟩ := hv
    refine ⟨v, ?_, h2⟩
    unfold insert
    rw [if_neg (by simp), h1]
    have hnr : newFmt v.resolve = newFmt v := by unfold newFmt; rw [resolve_idem]
    simp [commit, build, buildWith, parse_newFmt, hnr, hchk v _ (hnil v)]
  · obtain ⟨w, hw, hwr, hsf, hall⟩ := C101_one_version hr s hs
    refine ⟨w, ?_, hsf.symm⟩
    unfold insert
    have hws : writeVersion .append (some s) asked = some w := hw
    rw [if_neg (by simp), hws]
    have hl := infer_written w s.frags (by rw [hwr]; exact hall) files
    have := hchk w _ hl
    simp only [true_and, Option.isSome_some, if_true, commit, Option.any_some, Option.map_some, Option.getD_some]
    rw [if_neg (by simp [hsf])]
    simp only [build, parse_newFmt, Option.bind_some, buildWith]
    rw [hsf]
    exact this

example : insert .create none none 2 (some .next) = some ⟨"2.1", [[(2, 1)], [(2, 1)]]⟩ ∧
    insert .append (some ⟨"2.1", [[(2, 1)]]⟩) (some ⟨"2.1", [[(2, 1)]]⟩) 1 (some .legacy) = some ⟨"2.1", [[(2, 1)], [(2, 1)]]⟩ ∧
    insert .overwrite (some ⟨"2.1", [[(2, 1)]]⟩) (some ⟨"2.1", [[(2, 1)]]⟩) 1 (some .legacy) = some ⟨"0.1", [[(0, 2)]]⟩ := by
  decide

/-- An append whose dataset has been overwritten in another version in the meantime is refused. -/
example : insert .append (some ⟨"2.0", [[(2, 0)]]⟩) (some ⟨"2.1", [[(2, 1)]]⟩) 1 none = none := by decide

/-- Full claim for the two ways to write fragments without a transaction. -/
def C101_fragments_statement : Prop :=
  ∀ asked : V, ofNumbers (fragmentWrite (some asked)) = some asked.resolve ∧
    ofNumbers (fragmentsWrite (some asked)) = some asked.resolve

/-- Single fragments have the version asked for up to 2.0, several fragments only 2.0.

Missing: `C101_fragments_violated`. -/
theorem C101_fragments_partial (asked : V) :
    (ofNumbers (fragmentWrite (some asked)) = some asked.resolve ↔ asked.resolve ≠ .v21) ∧
    (ofNumbers (fragmentsWrite (some asked)) = some asked.resolve ↔ asked.resolve = .v20) := by
  cases asked <;> decide

/-- Asking for fragments in 2.1 gives fragments in 2.0, which a dataset in 2.1 does not accept. -/
theorem C101_fragments_violated : ¬ C101_fragments_statement ∧
    commit (some ⟨"2.1", [[(2, 1)]]⟩) (some ⟨"2.1", [[(2, 1)]]⟩) false [[(2, 1)], [fragmentWrite (some .v21)]] none = none ∧
    commit (some ⟨"0.1", [[(0, 2)]]⟩) (some ⟨"0.1", [[(0, 2)]]⟩) false [[(0, 2)], [fragmentsWrite (some .legacy)]] none = none := by
  refine ⟨fun h => ?_, by decide, by decide⟩
  exact absurd (h .v21).1 (by decide)

/-- Full claim for a transaction that is committed with a version: it has this version or is refused. -/
def C101_asked_statement : Prop :=
  ∀ (seen cur : Option Man) (frags : List (List File)) (asked : V) (m : Man), commit seen cur true frags (some asked) = some m →
    m.fmt = newFmt asked

/-- It holds for new datasets, and for all versions but the legacy one. -/
theorem C101_asked_partial (seen cur : Option Man) (hsc : seen = none → cur = none) (hcs : cur = none → seen = none)
    (frags : List (List File)) (asked : V) (m : Man)
    (h : commit seen cur true frags (some asked) = some m) (hl : seen = none ∨ asked ≠ .legacy) : m.fmt = newFmt asked := by
  have hnr : newFmt asked.resolve = newFmt asked := by unfold newFmt; rw [resolve_idem]
  cases seen with
  | none =>
    simp only [commit, if_true] at h
    unfold build at h
    simp only [parse_newFmt, Option.bind_some, buildWith] at h
    obtain ⟨f, h1, h2⟩ := Option.map_eq_some_iff.1 h
    subst h2
    unfold fmtFromFiles at h1
    split at h1
    · cases h1
    · rename_i v hi
      split at h1
      · rename_i ha
        cases h1
        have : asked.resolve = v := by simpa using ha
        rw [← this, hnr]
      · cases h1
    · cases h1
      exact hnr
  | some s =>
    cases cur with
    | none => cases hcs rfl
    | some c =>
      have hne : asked ≠ .legacy := hl.resolve_left (by simp)
      have hnl : asked.resolve ≠ .legacy := by cases asked <;> simp_all [V.resolve]
      simp only [commit, Bool.not_true, Bool.and_false] at h
      obtain ⟨b, h1, h2⟩ := Option.bind_eq_some_iff.1 h
      unfold build at h1
      simp only [parse_newFmt, Option.bind_some, buildWith] at h1
      cases h1
      unfold check at h2
      simp only [hnr, parse_newFmt] at h2
      split at h2
      · cases h2
      · cases h2; rfl
      · rw [if_neg hnl] at h2
        split at h2
        · cases h2; rfl
        · cases h2

/-- An overwrite committed as legacy with 2.0 files becomes 2.0; the same commit to a new place is refused. -/
theorem C101_asked_violated : ¬ C101_asked_statement ∧ commit none none true [[(2, 0)]] (some .legacy) = none := by
  constructor
  · intro h
    have := h (some ⟨"2.0", []⟩) (some ⟨"2.0", []⟩) [[(2, 0)]] .legacy ⟨"2.0", [[(2, 0)]]⟩ (by decide)
    exact absurd this (by decide)
  · decide

/-- Names of versions that can be given: every name that is shown can be parsed, but for `next`. -/
theorem C101_names (v : V) : parse v.text = some v ↔ v ≠ .next := by cases v <;> decide

theorem C101_nonvacuous : ∃ h : List Man, Reach h ∧ h.length = 4 ∧
    h.map (·.fmt) = ["0.1", "0.1", "2.1", "0.1"] ∧ ∃ m ∈ h, m.frags.length = 2 := by
  have r1 : Reach [⟨"0.1", [[(0, 2)]]⟩] := .create (frags := [[(0, 2)]]) (asked := some .legacy) (by decide)
  have r2 : Reach ([⟨"0.1", [[(0, 2)]]⟩] ++ [⟨"0.1", [[(0, 2)], [(0, 1)]]⟩]) :=
    .commit (h := []) (s := ⟨"0.1", [[(0, 2)]]⟩) (ow := false) (frags := [[(0, 2)], [(0, 1)]]) (asked := none) r1 (by simp) (by decide)
  have r3 := Reach.commit (h := [⟨"0.1", [[(0, 2)]]⟩]) (s := ⟨"0.1", [[(0, 2)]]⟩) (ow := true) (frags := [[(2, 1)]]) (asked := some .next)
    (m := ⟨"2.1", [[(2, 1)]]⟩) r2 (by simp) (by decide)
  have r4 := Reach.restore (s := ⟨"0.1", [[(0, 2)]]⟩) (m := ⟨"0.1", [[(0, 2)]]⟩) r3 (by simp) (by decide)
  exact ⟨_, r4, by decide, by decide, ⟨"0.1", [[(0, 2)], [(0, 1)]]⟩, by simp, by decide⟩

end Verif.Fmt
