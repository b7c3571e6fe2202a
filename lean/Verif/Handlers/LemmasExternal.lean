import Verif.Handlers.Lemmas
/-! Invariant of the external store handler. -/
namespace Verif.Handlers

/-- Actions covered by `C22_external_partial`: new writers take versions that no earlier manifest has, and
the external store's put-if-not-exists does not report an error after landing. -/
def sure (leg : Nat → Option Nat) (s : XSt) : XAct → Prop
  | .begin _ v => leg v = none
  | .run i .after => s.pc i ≠ .staged
  | _ => True

/-- Writers that have not recorded their manifest. -/
def early (p : XPc) : Prop := p = .idle ∨ p = .begun ∨ p = .staged ∨ p = .lost ∨ p = .done .conflict

structure XInv (leg : Nat → Option Nat) (win : Nat → Option Nat) (s : XSt) : Prop where
  extNone : ∀ v, s.ext v = none → s.final v = leg v ∧ win v = leg v
  extStaged : ∀ v i, s.ext v = some (.staged i) → win v = some i ∧ s.staging i = true ∧ s.ver i = v ∧ leg v = none
  extFinal : ∀ v, s.ext v = some .final → s.final v = win v ∧ win v ≠ none
  fin : ∀ v i, s.final v = some i → win v = some i
  legWin : ∀ v i, leg v = some i → win v = some i
  ver : ∀ i, s.pc i ≠ .idle → leg (s.ver i) = none
  own : ∀ v i, win v = some i → leg v = some i ∨ (s.ver i = v ∧ ¬ early (s.pc i))
  staged : ∀ i, s.pc i = .staged → s.staging i = true
  won : ∀ i, (s.pc i = .put ∨ s.pc i = .copied ∨ s.pc i = .flipped ∨ s.pc i = .done .success) →
    win (s.ver i) = some i
  copied : ∀ i, s.pc i = .copied → s.final (s.ver i) = some i
  flipped : ∀ i, (s.pc i = .flipped ∨ s.pc i = .done .success) → s.ext (s.ver i) = some .final
  rdGot : ∀ r v i, (s.rd r = .got v i ∨ s.rd r = .copied v i ∨ s.rd r = .flipped v i) →
    win v = some i ∧ leg v = none
  rdCopied : ∀ r v i, s.rd r = .copied v i → s.final v = some i
  rdFlipped : ∀ r v i, s.rd r = .flipped v i → s.ext v = some .final
  rdFound : ∀ r v, (s.rd r = .found v ∨ s.rd r = .here v) → s.final v ≠ none

variable {leg win : Nat → Option Nat} {s : XSt}

/-- Not recorded means the version's winner is someone else. -/
theorem XInv.notWin (h : XInv leg win s) {i : Nat} (he : early (s.pc i)) (hid : s.pc i ≠ .idle) :
    win (s.ver i) ≠ some i := by
  intro hw
  rcases h.own _ _ hw with hl | ⟨_, hn⟩
  · rw [h.ver i hid] at hl; cases hl
  · exact hn he

/-- A writer moves: nothing else changes. -/
theorem XInv.movePc (h : XInv leg win s) (i : Nat) (p : XPc) (hid : s.pc i ≠ .idle) (hid' : p ≠ .idle)
    (hst : p ≠ .staged ∨ s.staging i = true)
    (hearly : early p → early (s.pc i))
    (hwon : (p = .put ∨ p = .copied ∨ p = .flipped ∨ p = .done .success) → win (s.ver i) = some i)
    (hcop : p = .copied → s.final (s.ver i) = some i)
    (hflip : (p = .flipped ∨ p = .done .success) → s.ext (s.ver i) = some .final) :
    XInv leg win { s with pc := upd s.pc i p } := by
  refine ⟨h.extNone, h.extStaged, h.extFinal, h.fin, h.legWin, ?_, ?_, ?_, ?_, ?_, ?_, h.rdGot, h.rdCopied,
    h.rdFlipped, h.rdFound⟩
  · intro j hj
    by_cases e : j = i
    · subst e; exact h.ver j hid
    · simp [e] at hj; exact h.ver j hj
  · intro v j hw
    rcases h.own v j hw with hl | ⟨h1, h2⟩
    · exact .inl hl
    · right
      refine ⟨h1, ?_⟩
      by_cases e : j = i
      · subst e; simp; exact fun hp => h2 (hearly hp)
      · simpa [e] using h2
  · intro j hj
    by_cases e : j = i
    · subst e
      simp at hj
      rcases hst with hn | hs
      · exact absurd hj hn
      · exact hs
    · simp [e] at hj; exact h.staged j hj
  · intro j hj
    by_cases e : j = i
    · subst e; simp at hj; exact hwon hj
    · simp [e] at hj; exact h.won j hj
  · intro j hj
    by_cases e : j = i
    · subst e; simp at hj; exact hcop hj
    · simp [e] at hj; exact h.copied j hj
  · intro j hj
    by_cases e : j = i
    · subst e; simp at hj; exact hflip hj
    · simp [e] at hj; exact h.flipped j hj

/-- A reader moves. -/
theorem XInv.moveRd (h : XInv leg win s) (r : Nat) (p : RPc)
    (hgot : ∀ v i, (p = .got v i ∨ p = .copied v i ∨ p = .flipped v i) → win v = some i ∧ leg v = none)
    (hcop : ∀ v i, p = .copied v i → s.final v = some i)
    (hflip : ∀ v i, p = .flipped v i → s.ext v = some .final)
    (hfound : ∀ v, (p = .found v ∨ p = .here v) → s.final v ≠ none) :
    XInv leg win { s with rd := upd s.rd r p } := by
  refine ⟨h.extNone, h.extStaged, h.extFinal, h.fin, h.legWin, h.ver, h.own, h.staged, h.won, h.copied,
    h.flipped, ?_, ?_, ?_, ?_⟩
  · intro q v i hq
    by_cases e : q = r
    · subst e; simp at hq; exact hgot v i hq
    · simp [e] at hq; exact h.rdGot q v i hq
  · intro q v i hq
    by_cases e : q = r
    · subst e; simp at hq; exact hcop v i hq
    · simp [e] at hq; exact h.rdCopied q v i hq
  · intro q v i hq
    by_cases e : q = r
    · subst e; simp at hq; exact hflip v i hq
    · simp [e] at hq; exact h.rdFlipped q v i hq
  · intro q v hq
    by_cases e : q = r
    · subst e; simp at hq; exact hfound v hq
    · simp [e] at hq; exact h.rdFound q v hq

/-- Writing a staging file. -/
theorem XInv.stage (h : XInv leg win s) (i : Nat) : XInv leg win { s with staging := upd s.staging i true } := by
  refine ⟨h.extNone, ?_, h.extFinal, h.fin, h.legWin, h.ver, h.own, ?_, h.won, h.copied, h.flipped, h.rdGot,
    h.rdCopied, h.rdFlipped, h.rdFound⟩
  · intro v j hv
    obtain ⟨h1, h2, h3, h4⟩ := h.extStaged v j hv
    refine ⟨h1, ?_, h3, h4⟩
    by_cases e : j = i
    · subst e; simp
    · simp [e, h2]
  · intro j hj
    by_cases e : j = i
    · subst e; simp
    · simp [e]; exact h.staged j hj

/-- Deleting a staging file nothing points to. -/
theorem XInv.unstage (h : XInv leg win s) (i : Nat) (hp : s.pc i ≠ .staged)
    (he : ∀ v, s.ext v ≠ some (.staged i)) : XInv leg win { s with staging := upd s.staging i false } := by
  refine ⟨h.extNone, ?_, h.extFinal, h.fin, h.legWin, h.ver, h.own, ?_, h.won, h.copied, h.flipped, h.rdGot,
    h.rdCopied, h.rdFlipped, h.rdFound⟩
  · intro v j hv
    obtain ⟨h1, h2, h3, h4⟩ := h.extStaged v j hv
    refine ⟨h1, ?_, h3, h4⟩
    have e : j ≠ i := by rintro rfl; exact he v hv
    simp [e, h2]
  · intro j hj
    have e : j ≠ i := by rintro rfl; exact hp hj
    simp [e]; exact h.staged j hj

/-- Copying the winner's staging file to the version's path. -/
theorem XInv.copy (h : XInv leg win s) (v i : Nat) (hw : win v = some i) (hl : leg v = none) :
    XInv leg win { s with final := upd s.final v (some i) } ∧
    ∀ w j, s.final w = some j → upd s.final v (some i) w = some j := by
  have hmono : ∀ w j, s.final w = some j → upd s.final v (some i) w = some j := by
    intro w j hj
    by_cases e : w = v
    · subst e
      have := h.fin w j hj
      rw [hw] at this
      simp [Option.some.inj this]
    · simp [e, hj]
  refine ⟨⟨?_, h.extStaged, ?_, ?_, h.legWin, h.ver, h.own, h.staged, h.won, ?_, h.flipped, h.rdGot, ?_,
    h.rdFlipped, ?_⟩, hmono⟩
  · intro w hw'
    obtain ⟨h1, h2⟩ := h.extNone w hw'
    have e : w ≠ v := by rintro rfl; rw [hw, hl] at h2; cases h2
    simp [e, h1, h2]
  · intro w hw'
    obtain ⟨h1, h2⟩ := h.extFinal w hw'
    by_cases e : w = v
    · subst e; simp [hw]
    · simp [e, h1, h2]
  · intro w j hj
    by_cases e : w = v
    · subst e; simp at hj; subst hj; exact hw
    · simp [e] at hj; exact h.fin w j hj
  · intro j hj; exact hmono _ _ (h.copied j hj)
  · intro r w j hj; exact hmono _ _ (h.rdCopied r w j hj)
  · intro r w hr
    have := h.rdFound r w hr
    cases hf : s.final w with
    | none => exact absurd hf this
    | some j => simp [hmono w j hf]

/-- Pointing the external store at the version's path once the path holds the winner's manifest. -/
theorem XInv.flip (h : XInv leg win s) (v i : Nat) (hf : s.final v = some i) :
    XInv leg win { s with ext := upd s.ext v (some .final) } := by
  refine ⟨?_, ?_, ?_, h.fin, h.legWin, h.ver, h.own, h.staged, h.won, h.copied, ?_, h.rdGot, h.rdCopied, ?_,
    h.rdFound⟩
  · intro w hw
    by_cases e : w = v
    · subst e; simp at hw
    · simp [e] at hw; exact h.extNone w hw
  · intro w j hw
    by_cases e : w = v
    · subst e; simp at hw
    · simp [e] at hw; exact h.extStaged w j hw
  · intro w hw
    by_cases e : w = v
    · subst e; rw [h.fin w i hf]; exact ⟨hf, by simp⟩
    · simp [e] at hw; exact h.extFinal w hw
  · intro j hj
    by_cases e : s.ver j = v
    · simp [e]
    · simp [e]; exact h.flipped j hj
  · intro r w j hj
    by_cases e : w = v
    · simp [e]
    · simp [e]; exact h.rdFlipped r w j hj

/-- Recording the first manifest of a version. -/
theorem XInv.put (h : XInv leg win s) (i : Nat) (hp : s.pc i = .staged) (he : s.ext (s.ver i) = none) :
    XInv leg (upd win (s.ver i) (some i))
      { s with ext := upd s.ext (s.ver i) (some (.staged i)), pc := upd s.pc i .put } ∧
    ∀ w j, win w = some j → upd win (s.ver i) (some i) w = some j := by
  have hlv : leg (s.ver i) = none := h.ver i (by simp [hp])
  have hwn : win (s.ver i) = none := by rw [(h.extNone _ he).2, hlv]
  have hfn : s.final (s.ver i) = none := by rw [(h.extNone _ he).1, hlv]
  have hst := h.staged i hp
  have hmono : ∀ w j, win w = some j → upd win (s.ver i) (some i) w = some j := by
    intro w j hj
    have e : w ≠ s.ver i := by rintro rfl; rw [hwn] at hj; cases hj
    simp [e, hj]
  refine ⟨⟨?_, ?_, ?_, ?_, ?_, ?_, ?_, ?_, ?_, ?_, ?_, ?_, h.rdCopied, ?_, h.rdFound⟩, hmono⟩
  · intro w hw
    by_cases e : w = s.ver i
    · subst e; simp at hw
    · simp [e] at hw ⊢; exact h.extNone w hw
  · intro w j hw
    by_cases e : w = s.ver i
    · subst e; simp at hw; subst hw; exact ⟨by simp, hst, rfl, hlv⟩
    · simp [e] at hw
      obtain ⟨h1, h2⟩ := h.extStaged w j hw
      exact ⟨hmono _ _ h1, h2⟩
  · intro w hw
    by_cases e : w = s.ver i
    · subst e; simp at hw
    · simp [e] at hw ⊢; exact h.extFinal w hw
  · intro w j hj; exact hmono _ _ (h.fin w j hj)
  · intro w j hj; exact hmono _ _ (h.legWin w j hj)
  · intro j hj
    by_cases e : j = i
    · subst e; exact hlv
    · simp [e] at hj; exact h.ver j hj
  · intro w j hj
    by_cases e : j = i
    · subst e
      by_cases ew : w = s.ver j
      · right; subst ew; refine ⟨rfl, ?_⟩; simp [early]
      · simp [ew] at hj
        rcases h.own w j hj with hl | ⟨hv, _⟩
        · exact .inl hl
        · exact absurd hv.symm ew
    · by_cases ew : w = s.ver i
      · subst ew; simp at hj; exact absurd hj.symm e
      · simp [ew] at hj
        rcases h.own w j hj with hl | ⟨hv, hn⟩
        · exact .inl hl
        · right; exact ⟨hv, by simpa [e] using hn⟩
  · intro j hj
    by_cases e : j = i
    · subst e; exact hst
    · simp [e] at hj; exact h.staged j hj
  · intro j hj
    by_cases e : j = i
    · subst e; simp
    · simp [e] at hj; exact hmono _ _ (h.won j hj)
  · intro j hj
    by_cases e : j = i
    · subst e; simp at hj
    · simp [e] at hj; exact h.copied j hj
  · intro j hj
    by_cases e : j = i
    · subst e; simp at hj
    · simp [e] at hj
      have := h.flipped j hj
      have ev : s.ver j ≠ s.ver i := fun ev => by rw [ev, he] at this; cases this
      simp [ev]; exact this
  · intro r w j hj
    obtain ⟨h1, h2⟩ := h.rdGot r w j hj
    exact ⟨hmono _ _ h1, h2⟩
  · intro r w j hj
    have := h.rdFlipped r w j hj
    have ev : w ≠ s.ver i := fun ev => by rw [ev, he] at this; cases this
    simp [ev]; exact this

/-- A new writer. -/
theorem XInv.start (h : XInv leg win s) (i v : Nat) (hp : s.pc i = .idle) (hl : leg v = none) :
    XInv leg win { s with ver := upd s.ver i v, pc := upd s.pc i .begun } := by
  have own : ∀ w, win w = some i → leg w = some i := by
    intro w hw
    rcases h.own w i hw with h1 | ⟨_, h2⟩
    · exact h1
    · exact absurd (.inl hp) h2
  refine ⟨h.extNone, ?_, h.extFinal, h.fin, h.legWin, ?_, ?_, ?_, ?_, ?_, ?_, h.rdGot, h.rdCopied,
    h.rdFlipped, h.rdFound⟩
  · intro w j hj
    obtain ⟨h1, h2, h3, h4⟩ := h.extStaged w j hj
    have e : j ≠ i := by rintro rfl; rw [own w h1] at h4; cases h4
    exact ⟨h1, h2, by simpa [e] using h3, h4⟩
  · intro j hj
    by_cases e : j = i
    · subst e; simpa using hl
    · simp [e] at hj ⊢; exact h.ver j hj
  · intro w j hj
    by_cases e : j = i
    · subst e; exact .inl (own w hj)
    · rcases h.own w j hj with h1 | h2
      · exact .inl h1
      · right; simpa [e] using h2
  · intro j hj
    by_cases e : j = i
    · subst e; simp at hj
    · simp [e] at hj; exact h.staged j hj
  · intro j hj
    by_cases e : j = i
    · subst e; simp at hj
    · simp [e] at hj ⊢; exact h.won j hj
  · intro j hj
    by_cases e : j = i
    · subst e; simp at hj
    · simp [e] at hj ⊢; exact h.copied j hj
  · intro j hj
    by_cases e : j = i
    · subst e; simp at hj
    · simp [e] at hj ⊢; exact h.flipped j hj

theorem XInv.extSome (h : XInv leg win s) {v i : Nat} (hw : win v = some i) (hl : leg v = none) :
    s.ext v = some (.staged i) ∨ s.ext v = some .final := by
  cases he : s.ext v with
  | none =>
    have := (h.extNone v he).2
    rw [hw, hl] at this; cases this
  | some p =>
    cases p with
    | final => exact .inr rfl
    | staged j =>
      have := (h.extStaged v j he).1
      rw [hw] at this
      exact .inl (by rw [Option.some.inj this])

/-- A staging file that is gone was finalized. -/
theorem XInv.gone (h : XInv leg win s) {v i : Nat} (hw : win v = some i) (hl : leg v = none)
    (hs : s.staging i = false) : s.ext v = some .final := by
  rcases h.extSome hw hl with he | he
  · rw [(h.extStaged v i he).2.1] at hs; cases hs
  · exact he

theorem XInv.notPointed (h : XInv leg win s) {v i : Nat} (hw : win v = some i) (hl : leg v = none)
    (he : s.ext v = some .final) (w : Nat) : s.ext w ≠ some (.staged i) := by
  intro hx
  obtain ⟨_, _, h3, _⟩ := h.extStaged w i hx
  rcases h.own v i hw with hl' | ⟨h1, _⟩
  · rw [hl] at hl'; cases hl'
  · rw [h1] at h3
    subst h3
    rw [he] at hx; cases hx

theorem XInv.notStaged (h : XInv leg win s) {v i : Nat} (hw : win v = some i) (hl : leg v = none) :
    ¬ early (s.pc i) ∧ s.ver i = v := by
  rcases h.own v i hw with hl' | ⟨h1, h2⟩
  · rw [hl] at hl'; cases hl'
  · exact ⟨h2, h1⟩

def Ext (win win' : Nat → Option Nat) : Prop := ∀ w j, win w = some j → win' w = some j

/-- One action keeps the invariant, the winners and what is at the versions' paths. -/
theorem xinv_step (h : XInv leg win s) (a : XAct) (ha : sure leg s a) :
    ∃ win', XInv leg win' (xstep s a) ∧ Ext win win' ∧
      ∀ v i, s.final v = some i → (xstep s a).final v = some i := by
  have same : ∀ s' : XSt, XInv leg win s' → s'.final = s.final →
      ∃ win', XInv leg win' s' ∧ Ext win win' ∧ ∀ v i, s.final v = some i → s'.final v = some i :=
    fun s' hi hf => ⟨win, hi, fun _ _ h => h, fun v i hv => by rw [hf]; exact hv⟩
  cases a with
  | begin i v =>
    simp only [xstep]
    split
    · rename_i hp
      exact same _ (h.start i v hp ha) rfl
    · exact same _ h rfl
  | crash i =>
    simp only [xstep]
    split
    · exact same _ h rfl
    · exact same _ h rfl
    · rename_i x y
      exact same _ (h.movePc i .crashed (fun e => x e) (by simp) (.inl (by simp)) (by simp [early])
        (by simp) (by simp) (by simp)) rfl
  | get r v =>
    simp only [xstep]
    split
    · exact same _ (h.moveRd r (.miss v) (by simp) (by simp) (by simp) (by simp)) rfl
    · rename_i he
      obtain ⟨h1, h2⟩ := h.extFinal v he
      exact same _ (h.moveRd r (.found v) (by simp) (by simp) (by simp)
        (fun w hw => by simp at hw; subst hw; rw [h1]; exact h2)) rfl
    · rename_i i he
      obtain ⟨h1, h2, h3, h4⟩ := h.extStaged v i he
      exact same _ (h.moveRd r (.got v i)
        (fun w j hw => by simp at hw; obtain ⟨rfl, rfl⟩ := hw; exact ⟨h1, h4⟩) (by simp) (by simp) (by simp)) rfl
  | read r f =>
    simp only [xstep, xread]
    cases hr : s.rd r with
    | miss v =>
      simp only
      cases f with
      | ok =>
        simp only
        split
        · exact same _ (h.moveRd r (.notFound v) (by simp) (by simp) (by simp) (by simp)) rfl
        · rename_i hn
          exact same _ (h.moveRd r (.here v) (by simp) (by simp) (by simp)
            (fun w hw => by simp at hw; subst hw; exact hn)) rfl
      | _ => exact same _ (h.moveRd r .failed (by simp) (by simp) (by simp) (by simp)) rfl
    | here v =>
      have hn := h.rdFound r v (.inr hr)
      have mv : ∀ s' : XSt, XInv leg win s' → s'.final = s.final →
          XInv leg win { s' with rd := upd s'.rd r (.found v) } := fun s' h' e =>
        h'.moveRd r (.found v) (by simp) (by simp) (by simp)
          (fun w hw => by simp at hw; subst hw; rw [e]; exact hn)
      have fl : ∃ i, s.final v = some i := by
        cases hf : s.final v with
        | none => exact absurd hf hn
        | some i => exact ⟨i, rfl⟩
      obtain ⟨i, hi⟩ := fl
      cases f with
      | before => exact same _ (mv s h rfl) rfl
      | ok =>
        simp only
        split
        · exact same _ (mv _ (h.flip v i hi) rfl) rfl
        · exact same _ (mv s h rfl) rfl
      | after =>
        simp only
        split
        · exact same _ (mv _ (h.flip v i hi) rfl) rfl
        · exact same _ (mv s h rfl) rfl
    | got v i =>
      obtain ⟨hw, hl⟩ := h.rdGot r v i (.inl hr)
      obtain ⟨hc, hm⟩ := h.copy v i hw hl
      cases f with
      | before => exact same _ (h.moveRd r .failed (by simp) (by simp) (by simp) (by simp)) rfl
      | ok =>
        simp only
        split
        · exact ⟨win, hc.moveRd r (.copied v i)
            (fun w j hw' => by simp at hw'; obtain ⟨rfl, rfl⟩ := hw'; exact ⟨hw, hl⟩)
            (fun w j hw' => by simp at hw'; obtain ⟨rfl, rfl⟩ := hw'; simp) (by simp) (by simp),
            fun _ _ h => h, hm⟩
        · rename_i hs
          have hx := h.gone hw hl (by simpa using hs)
          exact same _ (h.moveRd r (.found v) (by simp) (by simp) (by simp)
            (fun w hw' => by simp at hw'; subst hw'; rw [(h.extFinal v hx).1, hw]; simp)) rfl
      | after =>
        simp only
        split
        · exact ⟨win, hc.moveRd r .failed (by simp) (by simp) (by simp) (by simp), fun _ _ h => h, hm⟩
        · exact same _ (h.moveRd r .failed (by simp) (by simp) (by simp) (by simp)) rfl
    | copied v i =>
      obtain ⟨hw, hl⟩ := h.rdGot r v i (.inr (.inl hr))
      have hf := h.rdCopied r v i hr
      cases f with
      | before => exact same _ (h.moveRd r .failed (by simp) (by simp) (by simp) (by simp)) rfl
      | ok =>
        simp only
        split
        · exact same _ (h.moveRd r .failed (by simp) (by simp) (by simp) (by simp)) rfl
        · exact same _ ((h.flip v i hf).moveRd r (.flipped v i)
            (fun w j hw' => by simp at hw'; obtain ⟨rfl, rfl⟩ := hw'; exact ⟨hw, hl⟩) (by simp)
            (fun w j hw' => by simp at hw'; obtain ⟨rfl, rfl⟩ := hw'; simp) (by simp)) rfl
      | after =>
        simp only
        split
        · exact same _ (h.moveRd r .failed (by simp) (by simp) (by simp) (by simp)) rfl
        · exact same _ ((h.flip v i hf).moveRd r .failed (by simp) (by simp) (by simp) (by simp)) rfl
    | flipped v i =>
      obtain ⟨hw, hl⟩ := h.rdGot r v i (.inr (.inr hr))
      have hx := h.rdFlipped r v i hr
      have hu := h.unstage i (fun e => (h.notStaged hw hl).1 (by simp [early, e])) (h.notPointed hw hl hx)
      cases f with
      | before => exact same _ (h.moveRd r .failed (by simp) (by simp) (by simp) (by simp)) rfl
      | ok =>
        exact same _ (hu.moveRd r (.found v) (by simp) (by simp) (by simp)
          (fun w hw' => by simp at hw'; subst hw'; show s.final v ≠ none; rw [(h.extFinal v hx).1, hw]; simp)) rfl
      | after => exact same _ (hu.moveRd r .failed (by simp) (by simp) (by simp) (by simp)) rfl
    | _ => exact same _ h rfl
  | run i f =>
    simp only [xstep, xrun]
    cases hp : s.pc i with
    | begun =>
      have hid : s.pc i ≠ .idle := by simp [hp]
      cases f with
      | ok => exact same _ ((h.stage i).movePc i .staged hid (by simp) (.inr (by simp)) (by simp [early, hp])
          (by simp) (by simp) (by simp)) rfl
      | before => exact same _ (h.movePc i (.done .other) hid (by simp) (.inl (by simp)) (by simp [early])
          (by simp) (by simp) (by simp)) rfl
      | after => exact same _ ((h.stage i).movePc i (.done .other) hid (by simp) (.inl (by simp))
          (by simp [early]) (by simp) (by simp) (by simp)) rfl
    | staged =>
      have hid : s.pc i ≠ .idle := by simp [hp]
      have hlost := h.movePc i .lost hid (by simp) (.inl (by simp)) (by simp [early, hp]) (by simp) (by simp)
        (by simp)
      cases f with
      | ok =>
        simp only
        split
        · rename_i he
          obtain ⟨h1, h2⟩ := h.put i hp he
          exact ⟨_, h1, h2, fun _ _ h => h⟩
        · exact same _ hlost rfl
      | before => exact same _ hlost rfl
      | after => exact absurd hp ha
    | lost =>
      have hid : s.pc i ≠ .idle := by simp [hp]
      have hu := h.unstage i (by simp [hp]) (fun v hv => by
        obtain ⟨h1, _, h3, h4⟩ := h.extStaged v i hv
        rcases h.own v i h1 with hl | ⟨_, hn⟩
        · rw [h4] at hl; cases hl
        · exact hn (by simp [early, hp]))
      cases f with
      | ok => exact same _ (hu.movePc i (.done .conflict) hid (by simp) (.inl (by simp)) (by simp [early, hp])
          (by simp) (by simp) (by simp)) rfl
      | before => exact same _ (h.movePc i (.done .other) hid (by simp) (.inl (by simp)) (by simp [early])
          (by simp) (by simp) (by simp)) rfl
      | after => exact same _ (hu.movePc i (.done .other) hid (by simp) (.inl (by simp)) (by simp [early])
          (by simp) (by simp) (by simp)) rfl
    | put =>
      have hid : s.pc i ≠ .idle := by simp [hp]
      have hw := h.won i (.inl hp)
      have hl := h.ver i hid
      obtain ⟨hc, hm⟩ := h.copy _ i hw hl
      cases f with
      | before => exact same _ (h.movePc i (.done .other) hid (by simp) (.inl (by simp)) (by simp [early])
          (by simp) (by simp) (by simp)) rfl
      | ok =>
        simp only
        split
        · exact ⟨win, hc.movePc i .copied hid (by simp) (.inl (by simp)) (by simp [early]) (fun _ => hw)
            (fun _ => by simp) (by simp), fun _ _ h => h, hm⟩
        · rename_i hs
          have hx := h.gone hw hl (by simpa using hs)
          exact same _ (h.movePc i (.done .success) hid (by simp) (.inl (by simp)) (by simp [early])
            (fun _ => hw) (by simp) (fun _ => hx)) rfl
      | after =>
        simp only
        split
        · exact ⟨win, hc.movePc i (.done .other) hid (by simp) (.inl (by simp)) (by simp [early]) (by simp)
            (by simp) (by simp), fun _ _ h => h, hm⟩
        · exact same _ (h.movePc i (.done .other) hid (by simp) (.inl (by simp)) (by simp [early])
            (by simp) (by simp) (by simp)) rfl
    | copied =>
      have hid : s.pc i ≠ .idle := by simp [hp]
      have hw := h.won i (.inr (.inl hp))
      have hl := h.ver i hid
      have hf := h.copied i hp
      have hother := h.movePc i (.done .other) hid (by simp) (.inl (by simp)) (by simp [early])
          (by simp) (by simp) (by simp)
      cases f with
      | before => exact same _ hother rfl
      | ok =>
        simp only
        split
        · exact same _ hother rfl
        · exact same _ ((h.flip _ i hf).movePc i .flipped hid (by simp) (.inl (by simp)) (by simp [early])
            (fun _ => hw) (by simp) (fun _ => by simp)) rfl
      | after =>
        simp only
        split
        · exact same _ hother rfl
        · exact same _ ((h.flip _ i hf).movePc i (.done .other) hid (by simp) (.inl (by simp)) (by simp [early])
            (by simp) (by simp) (by simp)) rfl
    | flipped =>
      have hid : s.pc i ≠ .idle := by simp [hp]
      have hw := h.won i (.inr (.inr (.inl hp)))
      have hl := h.ver i hid
      have hx := h.flipped i (.inl hp)
      have hu := h.unstage i (by simp [hp]) (h.notPointed hw hl hx)
      cases f with
      | ok => exact same _ (hu.movePc i (.done .success) hid (by simp) (.inl (by simp)) (by simp [early])
          (fun _ => hw) (by simp) (fun _ => hx)) rfl
      | before => exact same _ (h.movePc i (.done .other) hid (by simp) (.inl (by simp)) (by simp [early])
          (by simp) (by simp) (by simp)) rfl
      | after => exact same _ (hu.movePc i (.done .other) hid (by simp) (.inl (by simp)) (by simp [early])
          (by simp) (by simp) (by simp)) rfl
    | _ => exact same _ h rfl

theorem xinv_init (leg : Nat → Option Nat) : XInv leg leg (xinit leg) := by
  refine ⟨fun v _ => ⟨rfl, rfl⟩, ?_, ?_, fun v i h => h, fun v i h => h, ?_, fun v i h => .inl h, ?_, ?_, ?_, ?_,
    ?_, ?_, ?_, ?_⟩ <;> simp [xinit]

/-- Runs all of whose actions are `sure`. -/
def Sure (leg : Nat → Option Nat) : XSt → List XAct → Prop
  | _, [] => True
  | s, a :: as => sure leg s a ∧ Sure leg (xstep s a) as

theorem xinv_runAll (as : List XAct) (s : XSt) (h : XInv leg win s) (ha : Sure leg s as) :
    ∃ win', XInv leg win' (xrunAll s as) ∧ Ext win win' ∧
      ∀ v i, s.final v = some i → (xrunAll s as).final v = some i := by
  induction as generalizing s win with
  | nil => exact ⟨win, h, fun _ _ h => h, fun _ _ h => h⟩
  | cons a as ih =>
    obtain ⟨w1, h1, h2, h3⟩ := xinv_step h a ha.1
    obtain ⟨w2, h4, h5, h6⟩ := ih _ h1 ha.2
    exact ⟨w2, h4, fun w j hj => h5 w j (h2 w j hj), fun v i hv => h6 v i (h3 v i hv)⟩

end Verif.Handlers
