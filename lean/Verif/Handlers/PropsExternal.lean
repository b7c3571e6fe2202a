import Verif.Handlers.LemmasExternal
/-!
# C22: the external manifest store
-/
namespace Verif.Handlers

/-- Version `v` is committed with writer `i`'s manifest: the external store points to it. -/
def Committed (s : XSt) (v i : Nat) : Prop :=
  s.ext v = some (.staged i) ∨ (s.ext v = some .final ∧ s.final v = some i)

/-- C22 as claimed, for a new dataset and every schedule, fault and crash: writers that report success
are the only ones to do so for their version and their manifest is what the version's path holds; a version
a reader is given exists; what the external store records can be resolved, to the same manifest for ever. -/
def C22_statement : Prop := ∀ as, let s := xrunAll (xinit fun _ => none) as
  (∀ i, s.pc i = .done .success → s.final (s.ver i) = some i) ∧
  (∀ r v, s.rd r = .found v → ∃ i, s.final v = some i) ∧
  (∀ v i bs, Committed s v i → Committed (xrunAll s bs) v i) ∧
  (∀ v i r, s.ext v = some (.staged i) →
    (xrunAll s [.get r v, .read r .ok, .read r .ok, .read r .ok]).final v = some i)

/-- C22 for every schedule and crash, every fault but one, and datasets that had manifests (`leg`) before
the external store was used.  Missing from the full claim: an error reported by the external store's
put-if-not-exists after it landed, and a writer taking the version number of an earlier manifest. -/
theorem C22_external_partial (leg : Nat → Option Nat) (as : List XAct) (ha : Sure leg (xinit leg) as) :
    let s := xrunAll (xinit leg) as
    (∀ i j, s.pc i = .done .success → s.pc j = .done .success → s.ver i = s.ver j → i = j) ∧
    (∀ i, s.pc i = .done .success → Committed s (s.ver i) i ∧ s.final (s.ver i) = some i) ∧
    (∀ r v, s.rd r = .found v → ∃ i, s.final v = some i ∧ (leg v = some i ∨ Committed s v i)) ∧
    (∀ v i, s.final v = some i → leg v = some i ∨ (s.ver i = v ∧ Committed s v i)) ∧
    (∀ v i bs, Sure leg s bs → Committed s v i → Committed (xrunAll s bs) v i) ∧
    (∀ v i bs, Sure leg s bs → s.final v = some i → (xrunAll s bs).final v = some i) := by
  intro s
  obtain ⟨win, h, _, _⟩ := xinv_runAll as _ (xinv_init leg) ha
  have succ : ∀ i, s.pc i = .done .success → s.final (s.ver i) = some i := by
    intro i hi
    have hx := h.flipped i (.inr hi)
    rw [(h.extFinal _ hx).1]
    exact h.won i (.inr (.inr (.inr hi)))
  have comm : ∀ v i, s.final v = some i → leg v = some i ∨ (s.ver i = v ∧ Committed s v i) := by
    intro v i hv
    have hw := h.fin v i hv
    rcases h.own v i hw with hl | ⟨h1, _⟩
    · exact .inl hl
    · cases hlv : leg v with
      | some j =>
        left
        rw [← hw, h.legWin v j hlv]
      | none =>
        right
        refine ⟨h1, ?_⟩
        rcases h.extSome hw hlv with he | he
        · exact .inl he
        · exact .inr ⟨he, hv⟩
  refine ⟨?_, ?_, ?_, comm, ?_, ?_⟩
  · intro i j hi hj hv
    have := succ i hi
    rw [hv, succ j hj] at this
    exact (Option.some.inj this).symm
  · intro i hi
    exact ⟨.inr ⟨h.flipped i (.inr hi), succ i hi⟩, succ i hi⟩
  · intro r v hr
    have hn := h.rdFound r v (.inl hr)
    cases hf : s.final v with
    | none => exact absurd hf hn
    | some i =>
      refine ⟨i, rfl, ?_⟩
      rcases comm v i hf with hl | ⟨_, hc⟩
      · exact .inl hl
      · exact .inr hc
  · intro v i bs hb hc
    obtain ⟨win', h', he', hf'⟩ := xinv_runAll bs s h hb
    have hw : win v = some i := by
      rcases hc with hc | ⟨_, hc⟩
      · exact (h.extStaged v i hc).1
      · exact h.fin v i hc
    have hw' := he' v i hw
    cases hx : (xrunAll s bs).ext v with
    | none =>
      exfalso
      -- the entry of `v` never goes away
      have keep : ∀ (bs : List XAct) (t : XSt), t.ext v ≠ none → (xrunAll t bs).ext v ≠ none := by
        intro bs
        induction bs with
        | nil => exact fun t ht => ht
        | cons b bs ih =>
          intro t ht
          refine ih _ ?_
          have up : ∀ (w : Nat) (p : Ptr), upd t.ext w (some p) v ≠ none := by
            intro w p
            by_cases e : v = w
            · subst e; simp
            · simpa [e] using ht
          cases b with
          | begin i v => simp only [xstep]; split <;> exact ht
          | crash i => simp only [xstep]; split <;> exact ht
          | get r v => simp only [xstep]; split <;> exact ht
          | run j f =>
            simp only [xstep, xrun]
            cases hp : t.pc j <;> cases f <;> simp only <;> first
              | exact ht
              | (split <;> first | exact ht | exact up _ _)
              | exact up _ _
          | read r f =>
            simp only [xstep, xread]
            cases hp : t.rd r <;> cases f <;> simp only <;> first
              | exact ht
              | (split <;> first | exact ht | exact up _ _)
              | exact up _ _
      refine keep bs s ?_ hx
      rcases hc with hc | ⟨hc, _⟩ <;> simp [hc]
    | some p =>
      cases p with
      | final =>
        right
        exact ⟨hx, by rw [(h'.extFinal v hx).1, hw']⟩
      | staged j =>
        left
        have := (h'.extStaged v j hx).1
        rw [hw'] at this
        rw [hx, Option.some.inj this]
  · intro v i bs hb hv
    exact (xinv_runAll bs s h hb).choose_spec.2.2 v i hv

/-- Whatever happened to the writer, a recorded version is completed by the next reader, who is given a
path that holds the recorded manifest. -/
theorem C22_reader_completes (leg : Nat → Option Nat) (as : List XAct) (ha : Sure leg (xinit leg) as)
    (v i r : Nat) :
    let s := xrunAll (xinit leg) as
    Committed s v i →
    let t := xrunAll s [.get r v, .read r .ok, .read r .ok, .read r .ok]
    t.rd r = .found v ∧ t.final v = some i ∧ t.ext v = some .final ∧
      (s.ext v = some (.staged i) → t.staging i = false) := by
  intro s hc
  obtain ⟨win, h, _, _⟩ := xinv_runAll as _ (xinv_init leg) ha
  rcases hc with hc | ⟨hc, hf⟩
  · have hs : s.staging i = true := (h.extStaged v i hc).2.1
    have he : s.ext v = some (.staged i) := hc
    simp [xrunAll, xstep, xread, he, hs]
  · have he : s.ext v = some .final := hc
    simp [xrunAll, xstep, xread, he]
    exact hf

/-- An earlier manifest is found at its own path. -/
theorem C22_reader_legacy (leg : Nat → Option Nat) (as : List XAct) (ha : Sure leg (xinit leg) as)
    (v i r : Nat) (hl : leg v = some i) :
    let s := xrunAll (xinit leg) as
    let t := xrunAll s [.get r v, .read r .ok, .read r .ok]
    t.rd r = .found v ∧ t.final v = some i := by
  intro s
  obtain ⟨win, h, _, _⟩ := xinv_runAll as _ (xinv_init leg) ha
  have hw := h.legWin v i hl
  cases he : s.ext v with
  | none =>
    have hf : s.final v = some i := by rw [(h.extNone v he).1, hl]
    simp [xrunAll, xstep, xread, he, hf]
  | some p =>
    cases p with
    | final =>
      have hf : s.final v = some i := by rw [(h.extFinal v he).1, hw]
      simp [xrunAll, xstep, xread, he, hf]
    | staged j =>
      have := (h.extStaged v j he).2.2.2
      rw [hl] at this; cases this

/-- A writer killed after recording its manifest, and one killed half way through finalizing; a second
writer loses to each; readers complete both versions. -/
def xtrace : List XAct :=
  [.begin 0 1, .begin 1 1, .run 0 .ok, .run 1 .ok, .run 0 .ok, .crash 0, .run 1 .ok, .run 1 .ok, .get 0 1,
    .begin 2 2, .run 2 .ok, .run 2 .ok, .run 2 .ok, .crash 2, .read 0 .ok, .get 1 1, .read 0 .ok, .read 0 .ok,
    .read 1 .ok]

example : Sure (fun _ => none) (xinit fun _ => none) xtrace := by
  simp [Sure, xtrace, sure]
example : (xrunAll (xinit fun _ => none) xtrace).pc 1 = .done .conflict ∧
    (xrunAll (xinit fun _ => none) xtrace).rd 0 = .found 1 ∧
    (xrunAll (xinit fun _ => none) xtrace).rd 1 = .found 1 ∧
    (xrunAll (xinit fun _ => none) xtrace).final 1 = some 0 ∧
    (xrunAll (xinit fun _ => none) xtrace).ext 2 = some (.staged 2) := by decide

/-- The external store records the staging file but the answer is lost: the writer deletes the file and
reports a conflict.  From then on readers are sent to a path that does not exist and no writer can commit
this version. -/
def xlost : List XAct := [.begin 0 1, .run 0 .ok, .run 0 .after, .run 0 .ok, .get 0 1, .read 0 .ok,
  .begin 1 1, .run 1 .ok, .run 1 .ok, .run 1 .ok]

theorem C22_lost_answer_violated : ¬ C22_statement ∧
    (let s := xrunAll (xinit fun _ => none) xlost
     s.ext 1 = some (.staged 0) ∧ s.staging 0 = false ∧ s.rd 0 = .found 1 ∧ s.final 1 = none ∧
     s.pc 0 = .done .conflict ∧ s.pc 1 = .done .conflict) := by
  refine ⟨fun h => ?_, by decide⟩
  obtain ⟨i, hi⟩ := (h xlost).2.1 0 1 (by decide)
  have hn : (xrunAll (xinit fun _ => none) xlost).final 1 = none := by decide
  rw [hn] at hi; cases hi

/-- Five manifests from before the external store was used. -/
def five (v : Nat) : Option Nat := if 1 ≤ v ∧ v ≤ 5 then some (100 + v) else none

def xback : List XAct := [.get 0 3, .read 0 .ok, .read 0 .ok]
def xclobber : List XAct := xback ++ [.begin 0 4, .run 0 .ok, .run 0 .ok, .run 0 .ok, .run 0 .ok, .run 0 .ok]

/-- Opening an old version of a dataset that predates the external store makes that version the latest
one; the next commit takes the following number and replaces an existing version. -/
theorem C22_latest_back_violated :
    xlatest (xinit five) 10 = some 5 ∧ xlatest (xrunAll (xinit five) xback) 10 = some 3 ∧
    (xrunAll (xinit five) xback).final 4 = some 104 ∧ (xrunAll (xinit five) xclobber).final 4 = some 0 ∧
    (xrunAll (xinit five) xclobber).pc 0 = .done .success := by decide

/-- `resolve_latest_location` can pair the path of one version with the number of the next. -/
theorem C22_location_violated :
    ∃ as bs, Sure (fun _ => none) (xinit fun _ => none) (as ++ bs) ∧
      xlocation (xrunAll (xinit fun _ => none) as) (xrunAll (xinit fun _ => none) (as ++ bs)) 10
        = (some 2, some 1) := by
  refine ⟨[.begin 0 1, .run 0 .ok, .run 0 .ok], [.begin 1 2, .run 1 .ok, .run 1 .ok], ?_, by decide⟩
  simp [Sure, sure]

end Verif.Handlers
