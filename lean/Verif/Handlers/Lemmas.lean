import Verif.Handlers.Model
/-! Invariants of the rename and lock handlers. -/
namespace Verif.Handlers

@[simp] theorem upd_same {α : Type} (f : Nat → α) (i : Nat) (a : α) : upd f i a i = a := by simp [upd]
@[simp] theorem upd_other {α : Type} (f : Nat → α) {i j : Nat} (a : α) (h : j ≠ i) : upd f i a j = f j := by
  simp [upd, h]
theorem upd_apply {α : Type} (f : Nat → α) (i j : Nat) (a : α) :
    upd f i a j = if j = i then a else f j := rfl

/-! ## Rename -/

structure RInv (s : St) : Prop where
  succ : ∀ i, s.pc i = .done .success → s.final (s.ver i) = some i
  own : ∀ v i, s.final v = some i → s.ver i = v ∧ (s.pc i = .done .success ∨ s.pc i = .done .other)
  conf : ∀ i, s.pc i = .done .conflict → ∃ j, j ≠ i ∧ s.final (s.ver i) = some j

theorem rinv_step (s : St) (h : RInv s) (a : Act) :
    RInv (step .rename s a) ∧ ∀ v i, s.final v = some i → (step .rename s a).final v = some i := by
  obtain ⟨h1, h2, h3⟩ := h
  cases a with
  | begin i v =>
    simp only [step]
    split
    · rename_i hi
      refine ⟨⟨?_, ?_, ?_⟩, fun v i h => h⟩
      · intro j hj
        by_cases e : j = i
        · subst e; simp at hj
        · simp [e] at hj ⊢; exact h1 j hj
      · intro w j hj
        have := h2 w j hj
        have e : j ≠ i := by rintro rfl; rw [hi] at this; rcases this.2 with h | h <;> cases h
        simpa [e] using this
      · intro j hj
        by_cases e : j = i
        · subst e; simp at hj
        · simp [e] at hj ⊢; exact h3 j hj
    · exact ⟨⟨h1, h2, h3⟩, fun v i h => h⟩
  | expire => exact ⟨⟨h1, h2, h3⟩, fun v i h => h⟩
  | crash i =>
    have key : ∀ p, s.pc i = p → (∀ o, p ≠ .done o) →
        RInv { s with pc := upd s.pc i .crashed } := by
      intro p hp hno
      refine ⟨?_, ?_, ?_⟩
      · intro j hj
        by_cases e : j = i
        · subst e; simp at hj
        · simp [e] at hj; exact h1 j hj
      · intro w j hj
        have := h2 w j hj
        have e : j ≠ i := by
          rintro rfl
          rw [hp] at this
          rcases this.2 with h | h <;> exact hno _ h
        simpa [e] using this
      · intro j hj
        by_cases e : j = i
        · subst e; simp at hj
        · simp [e] at hj; exact h3 j hj
    simp only [step]
    split
    · exact ⟨⟨h1, h2, h3⟩, fun v i h => h⟩
    · exact ⟨⟨h1, h2, h3⟩, fun v i h => h⟩
    · rename_i x y
      exact ⟨key _ rfl (fun o e => y o e), fun v i h => h⟩
  | run i f =>
    simp only [step, runRename]
    -- moving a writer that owns nothing to a state that claims nothing
    have move : ∀ (p : Pc) (t : Nat → Bool), s.pc i ≠ .done .success → s.pc i ≠ .done .other →
        p ≠ .done .success → (p = .done .conflict → ∃ j, j ≠ i ∧ s.final (s.ver i) = some j) →
        RInv { s with pc := upd s.pc i p, tmp := t } := by
      intro p t n1 n2 n3 n4
      refine ⟨?_, ?_, ?_⟩
      · intro j hj
        by_cases e : j = i
        · subst e; simp at hj; exact absurd hj n3
        · simp [e] at hj; exact h1 j hj
      · intro w j hj
        have := h2 w j hj
        have e : j ≠ i := by
          rintro rfl
          rcases this.2 with h | h
          · exact n1 h
          · exact n2 h
        simpa [e] using this
      · intro j hj
        by_cases e : j = i
        · subst e; simp at hj; exact n4 hj
        · simp [e] at hj; exact h3 j hj
    -- the rename itself
    have win : ∀ (o : Out) (t : Nat → Bool), s.pc i = .staged → s.final (s.ver i) = none →
        (o = .success ∨ o = .other) →
        RInv { s with final := upd s.final (s.ver i) (some i), tmp := t, pc := upd s.pc i (.done o) } ∧
        ∀ v j, s.final v = some j → upd s.final (s.ver i) (some i) v = some j := by
      intro o t hst hn ho
      have hmono : ∀ v j, s.final v = some j → upd s.final (s.ver i) (some i) v = some j := by
        intro v j hj
        have : v ≠ s.ver i := by rintro rfl; rw [hn] at hj; cases hj
        simp [this, hj]
      refine ⟨⟨?_, ?_, ?_⟩, hmono⟩
      · intro j hj
        by_cases e : j = i
        · subst e; simp
        · simp [e] at hj; exact hmono _ _ (h1 j hj)
      · intro w j hj
        by_cases e : j = i
        · subst e
          simp only [upd_same]
          refine ⟨?_, ?_⟩
          · by_cases hw : w = s.ver j
            · exact hw.symm
            · simp [hw] at hj; exact (h2 w j hj).1
          · rcases ho with rfl | rfl
            · exact .inl rfl
            · exact .inr rfl
        · by_cases hw : w = s.ver i
          · subst hw; simp at hj; exact absurd hj.symm e
          · simp [hw] at hj; simpa [e] using h2 w j hj
      · intro j hj
        by_cases e : j = i
        · subst e
          simp at hj
          subst hj
          rcases ho with h | h <;> cases h
        · simp [e] at hj
          obtain ⟨m, hm, hm2⟩ := h3 j hj
          exact ⟨m, hm, hmono _ _ hm2⟩
    cases hpc : s.pc i with
    | begun =>
      cases f <;> simp only <;>
        exact ⟨move _ _ (by simp [hpc]) (by simp [hpc]) (by simp) (by simp), fun v i h => h⟩
    | staged =>
      cases f with
      | before =>
        simp only
        exact ⟨move _ _ (by simp [hpc]) (by simp [hpc]) (by simp) (by simp), fun v i h => h⟩
      | ok =>
        simp only
        split
        · rename_i hn
          exact win .success _ hpc hn (.inl rfl)
        · rename_i hn
          refine ⟨move _ _ (by simp [hpc]) (by simp [hpc]) (by simp) (fun _ => ?_), fun v i h => h⟩
          cases hf : s.final (s.ver i) with
          | none => exact absurd hf hn
          | some j =>
            refine ⟨j, ?_, rfl⟩
            rintro rfl
            have := (h2 _ _ hf).2
            rw [hpc] at this
            rcases this with h | h <;> cases h
      | after =>
        simp only
        split
        · rename_i hn
          exact win .other _ hpc hn (.inr rfl)
        · exact ⟨move _ _ (by simp [hpc]) (by simp [hpc]) (by simp) (by simp), fun v i h => h⟩
    | _ => exact ⟨⟨h1, h2, h3⟩, fun v i h => h⟩

theorem rinv_runAll (as : List Act) (s : St) (h : RInv s) :
    RInv (runAll .rename s as) ∧ ∀ v i, s.final v = some i → (runAll .rename s as).final v = some i := by
  induction as generalizing s with
  | nil => exact ⟨h, fun _ _ h => h⟩
  | cons a as ih =>
    obtain ⟨h1, h2⟩ := rinv_step s h a
    obtain ⟨h3, h4⟩ := ih _ h1
    exact ⟨h3, fun v i hv => h4 v i (h2 v i hv)⟩

theorem rinv_init : RInv init :=
  ⟨fun i h => by simp [init] at h, fun v i h => by simp [init] at h, fun i h => by simp [init] at h⟩

/-! ## Lock -/

structure LInv (s : St) : Prop where
  succ : ∀ i, s.pc i = .done .success → s.final (s.ver i) = some i
  hold : ∀ i, (s.pc i = .locked ∨ s.pc i = .checked ∨ ∃ b, s.pc i = .written b) → s.lock = some i
  free : ∀ i, s.pc i = .checked → s.final (s.ver i) = none
  wrote : ∀ i, s.pc i = .written true → s.final (s.ver i) = some i
  own : ∀ v i, s.final v = some i → s.ver i = v ∧ s.pc i ≠ .idle ∧ s.pc i ≠ .begun ∧ s.pc i ≠ .locked ∧
    s.pc i ≠ .checked ∧ s.pc i ≠ .done .conflict
  conf : ∀ i, s.pc i = .done .conflict → ∃ j, j ≠ i ∧ s.final (s.ver i) = some j

theorem linv_step (s : St) (h : LInv s) (a : Act) (ha : a ≠ .expire) :
    LInv (step .lock s a) ∧ ∀ v i, s.final v = some i → (step .lock s a).final v = some i := by
  obtain ⟨h1, h2, h3, h4, h5, h6⟩ := h
  -- a writer moves without touching the version files
  have move : ∀ (i : Nat) (p : Pc) (l : Option Nat) (vr : Nat → Nat),
      (∀ j, j ≠ i → vr j = s.ver j) →
      (p = .done .success → s.final (vr i) = some i) →
      ((p = .locked ∨ p = .checked ∨ ∃ b, p = .written b) → l = some i) →
      (∀ j, j ≠ i → s.lock = some j → l = some j) →
      (p = .checked → s.final (vr i) = none) →
      (p = .written true → s.final (vr i) = some i) →
      (∀ v, s.final v = some i → vr i = v ∧ p ≠ .idle ∧ p ≠ .begun ∧ p ≠ .locked ∧ p ≠ .checked ∧
        p ≠ .done .conflict) →
      (p = .done .conflict → ∃ j, j ≠ i ∧ s.final (vr i) = some j) →
      LInv { s with pc := upd s.pc i p, lock := l, ver := vr } := by
    intro i p l vr hvr c1 c2 c2' c3 c4 c5 c6
    refine ⟨?_, ?_, ?_, ?_, ?_, ?_⟩
    · intro j hj
      by_cases e : j = i
      · subst e; simp at hj; exact c1 hj
      · simp [e] at hj; simp only [hvr j e]; exact h1 j hj
    · intro j hj
      by_cases e : j = i
      · subst e; simp at hj; exact c2 (by simpa using hj)
      · simp [e] at hj
        exact c2' j e (h2 j (by simpa using hj))
    · intro j hj
      by_cases e : j = i
      · subst e; simp at hj; exact c3 hj
      · simp [e] at hj; simp only [hvr j e]; exact h3 j hj
    · intro j hj
      by_cases e : j = i
      · subst e; simp at hj; exact c4 hj
      · simp [e] at hj; simp only [hvr j e]; exact h4 j hj
    · intro v j hj
      by_cases e : j = i
      · subst e; simp; exact c5 v hj
      · simp only [hvr j e, upd_other _ _ e]; exact h5 v j hj
    · intro j hj
      by_cases e : j = i
      · subst e; simp at hj; exact c6 hj
      · simp [e] at hj; simp only [hvr j e]; exact h6 j hj
  cases a with
  | expire => exact absurd rfl ha
  | begin i v =>
    simp only [step]
    split
    · rename_i hi
      refine ⟨move i .begun s.lock (upd s.ver i v) (fun j hj => by simp [hj]) (by simp) (by simp)
        (fun j _ h => h) (by simp) (by simp) (fun w hw => ?_) (by simp), fun v i h => h⟩
      exact absurd hi (h5 w i hw).2.1
    · exact ⟨⟨h1, h2, h3, h4, h5, h6⟩, fun v i h => h⟩
  | crash i =>
    have key : (∀ o, s.pc i ≠ .done o) → s.pc i ≠ .idle →
        LInv { s with pc := upd s.pc i .crashed } := by
      intro hno hid
      exact move i .crashed s.lock s.ver (fun _ _ => rfl) (by simp) (by simp) (fun j _ h => h) (by simp)
        (by simp) (fun w hw => ⟨(h5 w i hw).1, by simp⟩) (by simp)
    simp only [step]
    split
    · exact ⟨⟨h1, h2, h3, h4, h5, h6⟩, fun v i h => h⟩
    · exact ⟨⟨h1, h2, h3, h4, h5, h6⟩, fun v i h => h⟩
    · rename_i x y
      exact ⟨key (fun o e => y o e) (fun e => x e), fun v i h => h⟩
  | run i f =>
    simp only [step, runLock]
    have nofile : (s.pc i = .begun ∨ s.pc i = .locked ∨ s.pc i = .checked) → ∀ v, s.final v ≠ some i := by
      intro hp v hv
      have := (h5 v i hv).2
      rcases hp with h | h | h
      · exact this.2.1 h
      · exact this.2.2.1 h
      · exact this.2.2.2.1 h
    have rel : ∀ j, j ≠ i → s.lock = some j → release s i = some j := by
      intro j hj hl
      unfold release
      rw [if_neg]
      · exact hl
      · rw [hl]; intro e; exact hj (Option.some.inj e)
    cases hpc : s.pc i with
    | begun =>
      have nf := nofile (.inl hpc)
      cases f with
      | ok =>
        simp only
        split
        · rename_i hl
          refine ⟨move i .locked (some i) s.ver (fun _ _ => rfl) (by simp) (by simp)
            (fun j hj h => by rw [hl] at h; cases h) (by simp) (by simp)
            (fun v hv => absurd hv (nf v)) (by simp), fun v i h => h⟩
        · exact ⟨⟨h1, h2, h3, h4, h5, h6⟩, fun v i h => h⟩
      | before =>
        exact ⟨move i (.done .other) s.lock s.ver (fun _ _ => rfl) (by simp) (by simp) (fun j _ h => h)
          (by simp) (by simp) (fun v hv => absurd hv (nf v)) (by simp), fun v i h => h⟩
      | after =>
        simp only
        split
        · rename_i hl
          exact ⟨move i (.done .other) (some i) s.ver (fun _ _ => rfl) (by simp) (by simp)
            (fun j hj h => by rw [hl] at h; cases h) (by simp) (by simp)
            (fun v hv => absurd hv (nf v)) (by simp), fun v i h => h⟩
        · exact ⟨⟨h1, h2, h3, h4, h5, h6⟩, fun v i h => h⟩
    | locked =>
      have nf := nofile (.inr (.inl hpc))
      have hl := h2 i (.inl hpc)
      cases f with
      | ok =>
        simp only
        split
        · rename_i hn
          exact ⟨move i .checked s.lock s.ver (fun _ _ => rfl) (by simp) (fun _ => hl) (fun j _ h => h)
            (fun _ => hn) (by simp) (fun v hv => absurd hv (nf v)) (by simp), fun v i h => h⟩
        · rename_i hn
          refine ⟨move i (.done .conflict) (release s i) s.ver (fun _ _ => rfl) (by simp) (by simp) rel
            (by simp) (by simp) (fun v hv => absurd hv (nf v)) (fun _ => ?_), fun v i h => h⟩
          cases hf : s.final (s.ver i) with
          | none => exact absurd hf hn
          | some j => exact ⟨j, fun e => nf _ (e ▸ hf), rfl⟩
      | before =>
        exact ⟨move i (.done .other) (release s i) s.ver (fun _ _ => rfl) (by simp) (by simp) rel
          (by simp) (by simp) (fun v hv => absurd hv (nf v)) (by simp), fun v i h => h⟩
      | after =>
        exact ⟨move i (.done .other) (release s i) s.ver (fun _ _ => rfl) (by simp) (by simp) rel
          (by simp) (by simp) (fun v hv => absurd hv (nf v)) (by simp), fun v i h => h⟩
    | checked =>
      have nf := nofile (.inr (.inr hpc))
      have hl := h2 i (.inr (.inl hpc))
      have hn := h3 i hpc
      have hmono : ∀ v j, s.final v = some j → upd s.final (s.ver i) (some i) v = some j := by
        intro v j hj
        have : v ≠ s.ver i := by rintro rfl; rw [hn] at hj; cases hj
        simp [this, hj]
      have others : ∀ j, j ≠ i → s.pc j ≠ .checked := fun j hj hc => by
        have := h2 j (.inr (.inl hc))
        rw [hl] at this
        exact hj (Option.some.inj this).symm
      have write : ∀ b, LInv { s with final := upd s.final (s.ver i) (some i), pc := upd s.pc i (.written b) } := by
        intro b
        refine ⟨?_, ?_, ?_, ?_, ?_, ?_⟩
        · intro j hj
          by_cases e : j = i
          · subst e; simp at hj
          · simp [e] at hj; exact hmono _ _ (h1 j hj)
        · intro j hj
          by_cases e : j = i
          · subst e; exact hl
          · simp [e] at hj; exact h2 j (by simpa using hj)
        · intro j hj
          by_cases e : j = i
          · subst e; simp at hj
          · simp [e] at hj; exact absurd hj (others j e)
        · intro j hj
          by_cases e : j = i
          · subst e; simp
          · simp [e] at hj; exact hmono _ _ (h4 j hj)
        · intro v j hj
          by_cases hv : v = s.ver i
          · subst hv
            simp at hj
            subst hj
            simp
          · simp [hv] at hj
            have e : j ≠ i := fun e => nf v (e ▸ hj)
            simp only [upd_other _ _ e]
            exact h5 v j hj
        · intro j hj
          by_cases e : j = i
          · subst e; simp at hj
          · simp [e] at hj
            obtain ⟨m, hm, hm2⟩ := h6 j hj
            exact ⟨m, hm, hmono _ _ hm2⟩
      cases f with
      | ok => exact ⟨write true, hmono⟩
      | after => exact ⟨write false, hmono⟩
      | before =>
        exact ⟨move i (.written false) s.lock s.ver (fun _ _ => rfl) (by simp) (fun _ => hl) (fun j _ h => h)
          (by simp) (by simp) (fun v hv => absurd hv (nf v)) (by simp), fun v i h => h⟩
    | written b =>
      have hv5 : ∀ v, s.final v = some i → s.ver i = v := fun v hv => (h5 v i hv).1
      cases f with
      | ok =>
        refine ⟨move i _ (release s i) s.ver (fun _ _ => rfl) ?_ (by simp) rel (by simp) (by simp)
          (fun v hv => ⟨hv5 v hv, by simp, by simp, by simp, by simp, ?_⟩) ?_, fun v i h => h⟩
        · cases b with
          | true => exact fun _ => h4 i hpc
          | false => simp
        · cases b <;> simp
        · cases b <;> simp
      | before =>
        exact ⟨move i (.done .other) s.lock s.ver (fun _ _ => rfl) (by simp) (by simp) (fun j _ h => h)
          (by simp) (by simp) (fun v hv => ⟨hv5 v hv, by simp⟩) (by simp), fun v i h => h⟩
      | after =>
        exact ⟨move i (.done .other) (release s i) s.ver (fun _ _ => rfl) (by simp) (by simp) rel
          (by simp) (by simp) (fun v hv => ⟨hv5 v hv, by simp⟩) (by simp), fun v i h => h⟩
    | _ => exact ⟨⟨h1, h2, h3, h4, h5, h6⟩, fun v i h => h⟩

theorem linv_runAll (as : List Act) (s : St) (h : LInv s) (ha : ∀ a ∈ as, a ≠ .expire) :
    LInv (runAll .lock s as) ∧ ∀ v i, s.final v = some i → (runAll .lock s as).final v = some i := by
  induction as generalizing s with
  | nil => exact ⟨h, fun _ _ h => h⟩
  | cons a as ih =>
    obtain ⟨h1, h2⟩ := linv_step s h a (ha a (List.mem_cons_self ..))
    obtain ⟨h3, h4⟩ := ih _ h1 (fun b hb => ha b (List.mem_cons_of_mem _ hb))
    exact ⟨h3, fun v i hv => h4 v i (h2 v i hv)⟩

theorem linv_init : LInv init := by
  refine ⟨fun i h => ?_, fun i h => ?_, fun i h => ?_, fun i h => ?_, fun v i h => ?_, fun i h => ?_⟩ <;>
    simp [init] at h

end Verif.Handlers
