import Verif.Txn.System
/-!
# Committed histories of the commit loop

`Valid h`: every version of `h` was built from the one before it by an attempt of `commit_transaction`
whose transaction had been prepared from an earlier version and, if no version in between was cleaned
up, checked against all versions in between.  Every reachable system has a valid history.
-/
namespace Verif.Txn

/-- No version between the one read and the commit was cleaned up before the commit. -/
def Entry.Clean (e : Entry) (n : Nat) : Prop := ∀ v, e.job.tx.read < v → v < n → v ∉ e.gone

/-- All commits of the history are clean. -/
def Hist.Clean : Hist → Prop
  | [] => True
  | e :: h => e.Clean (h.length + 1) ∧ Hist.Clean h

inductive Valid : Hist → Prop
  | nil : Valid []
  | first (j : Job) (m : Manifest) (ix : List Idx) (fs : List Frag) (sch : Schema) (up : Option Cfg)
      (hop : j.tx.op = .overwrite fs sch up) (hr : j.resv = []) (hread : j.tx.read = 0)
      (hprep : ∀ f ∈ fs, NewFrag f)
      (hatt : attemptNew j.tx = .ok (m, ix)) : Valid [⟨j, m, ix, []⟩]
  | next (e p : Entry) (h : Hist) (b : Entry) (hv : Valid (p :: h))
      (hlook : Hist.look (p :: h) e.job.tx.read = some b)
      (hprep : Prepared (p :: h) b.m e.job)
      (hex : ∀ x ∈ p :: h, ∀ v ∈ e.job.resv, v ∉ x.job.resv)
      (hnw : NoWrap p.m e.job.tx)
      (hatt : attempt (Hist.read (p :: h) e.gone) (p.m, p.ix) e.job.tx (h.length + 2) = .ok (e.m, e.ix))
      (hchk : e.Clean (h.length + 2) → ∀ v, e.job.tx.read < v → v ≤ h.length + 1 →
        ∃ cached, noConflict (p :: h) cached e.job.tx v = true) :
      Valid (e :: p :: h)

theorem look_le {h : Hist} {v : Nat} {e : Entry} (hl : h.look v = some e) : 1 ≤ v ∧ v ≤ h.length := by
  induction h with
  | nil => simp [Hist.look] at hl
  | cons x h ih =>
    simp only [Hist.look] at hl
    split at hl
    · simp only [List.length_cons]; omega
    · have := ih hl; simp only [List.length_cons]; omega

theorem look_cons_of_le (x : Entry) {h : Hist} {v : Nat} (hv : v ≤ h.length) :
    Hist.look (x :: h) v = h.look v := by
  simp only [Hist.look]; rw [if_neg (by omega)]

theorem look_cons_some (x : Entry) {h : Hist} {v : Nat} {e : Entry} (hl : h.look v = some e) :
    Hist.look (x :: h) v = some e := by
  rw [look_cons_of_le x (look_le hl).2]; exact hl

theorem look_top (x : Entry) (h : Hist) : Hist.look (x :: h) (h.length + 1) = some x := by
  simp [Hist.look]

theorem look_mem {h : Hist} {v : Nat} {e : Entry} (hl : h.look v = some e) : e ∈ h := by
  induction h with
  | nil => simp [Hist.look] at hl
  | cons x h ih =>
    simp only [Hist.look] at hl
    split at hl
    · cases hl; exact List.mem_cons_self
    · exact List.mem_cons_of_mem _ (ih hl)

theorem look_exists {h : Hist} {v : Nat} (h1 : 1 ≤ v) (h2 : v ≤ h.length) : ∃ e, h.look v = some e := by
  induction h with
  | nil => simp at h2; omega
  | cons x h ih =>
    by_cases hv : v = h.length + 1
    · exact ⟨x, by simp [Hist.look, hv]⟩
    · simp only [List.length_cons] at h2
      obtain ⟨e, he⟩ := ih (by omega)
      exact ⟨e, look_cons_some x he⟩

theorem noConflict_cons (x : Entry) {h : Hist} {c : Nat → Bool} {tx : Tx} {v : Nat}
    (hn : noConflict h c tx v = true) : noConflict (x :: h) c tx v = true := by
  unfold noConflict Hist.opAt at *
  cases hl : h.look v with
  | none => rw [hl] at hn; simp at hn
  | some e => rw [look_cons_some x hl]; rw [hl] at hn; exact hn

theorem granted_cons (x : Entry) {h : Hist} {v i : Nat} (hg : Granted h v i) : Granted (x :: h) v i := by
  obtain ⟨e, n, h1, h2⟩ := hg
  exact ⟨e, n, look_cons_some x h1, h2⟩

theorem prepared_cons (x : Entry) {h : Hist} {m : Manifest} {j : Job} (hp : Prepared h m j) :
    Prepared (x :: h) m j := by
  unfold Prepared at *
  cases hop : j.tx.op with
  | rewrite gs rew =>
    rw [hop] at hp
    obtain ⟨h1, h2, h3, h4, h5⟩ := hp
    refine ⟨h1, h2, h3, ?_, h5⟩
    intro g hg f hf
    obtain ⟨v, hv, hgr⟩ := h4 g hg f hf
    exact ⟨v, hv, granted_cons x hgr⟩
  | restore v =>
    rw [hop] at hp
    exact ⟨hp.1, by have := hp.2; simp only [List.length_cons]; omega⟩
  | _ => rw [hop] at hp; exact hp

/-! ## The invariant of the system -/

/-- A pending job was prepared from an existing version and shares no reservation. -/
structure JobOk (h : Hist) (j : Job) : Prop where
  prep : ∃ b, h.look j.tx.read = some b ∧ Prepared h b.m j
  excl : ∀ x ∈ h, ∀ v ∈ j.resv, v ∉ x.job.resv

/-- Versions in `(read, base]` have been checked, unless one of them is gone. -/
def Checked (h : Hist) (gone : List Nat) (j : Job) (base : Nat) : Prop :=
  base ≤ h.length ∧
  ((∀ v, j.tx.read < v → v ≤ base → v ∉ gone) →
    ∀ v, j.tx.read < v → v ≤ base → ∃ cached, noConflict h cached j.tx v = true)

structure Inv (s : Sys) : Prop where
  valid : Valid s.hist
  jobs : ∀ w j, (s.ws w).job = some j → JobOk s.hist j
  apart : ∀ w w' j j', w ≠ w' → (s.ws w).job = some j → (s.ws w').job = some j' →
    ∀ v ∈ j.resv, v ∉ j'.resv
  ready : ∀ w j b, s.ws w = .ready j b → j.tx.read ≤ b ∧ Checked s.hist s.gone j b
  retry : ∀ w j t, s.ws w = .retry j t → 1 ≤ t ∧ j.tx.read < t ∧ Checked s.hist s.gone j (t - 1)

theorem checked_cons {h : Hist} {gone : List Nat} {j : Job} {b : Nat} (x : Entry)
    (hc : Checked h gone j b) : Checked (x :: h) gone j b := by
  refine ⟨by have := hc.1; simp only [List.length_cons]; omega, fun hg v h1 h2 => ?_⟩
  obtain ⟨c, hn⟩ := hc.2 hg v h1 h2
  exact ⟨c, noConflict_cons x hn⟩

theorem checked_gone {h : Hist} {gone : List Nat} {j : Job} {b u : Nat}
    (hc : Checked h gone j b) : Checked h (u :: gone) j b :=
  ⟨hc.1, fun hg => hc.2 (fun v h1 h2 hm => hg v h1 h2 (List.mem_cons_of_mem _ hm))⟩

theorem mem_versionsAfter {a b v : Nat} : v ∈ versionsAfter a b ↔ a < v ∧ v ≤ b := by
  unfold versionsAfter
  rw [List.mem_range'_1]; omega

theorem takeWhile_all {α : Type} {p : α → Bool} {l : List α} (h : ∀ a ∈ l, p a = true) :
    l.takeWhile p = l := by
  induction l with
  | nil => rfl
  | cons a l ih =>
    rw [List.takeWhile_cons, h a List.mem_cons_self]
    simp only [if_true]
    rw [ih (fun b hb => h b (List.mem_cons_of_mem _ hb))]

theorem set_ws (s : Sys) (w : Nat) (x : W) (i : Nat) : (s.set w x).ws i = if i = w then x else s.ws i := rfl

/-- Only a writer's own transition changes the invariant's per-writer parts. -/
theorem inv_set {s : Sys} (hi : Inv s) (w : Nat) (x : W)
    (hj : ∀ j, x.job = some j → JobOk s.hist j)
    (ha : ∀ j, x.job = some j → ∀ w' j', w' ≠ w → (s.ws w').job = some j' → ∀ v ∈ j.resv, v ∉ j'.resv)
    (hr : ∀ j b, x = .ready j b → j.tx.read ≤ b ∧ Checked s.hist s.gone j b)
    (ht : ∀ j t, x = .retry j t → 1 ≤ t ∧ j.tx.read < t ∧ Checked s.hist s.gone j (t - 1)) : Inv (s.set w x) where
  valid := hi.valid
  jobs := by
    intro i j h
    rw [set_ws] at h
    split at h
    · exact hj j h
    · exact hi.jobs i j h
  apart := by
    intro i i' j j' hne h h'
    rw [set_ws] at h h'
    split at h <;> split at h'
    · omega
    · exact ha j h i' j' (by omega) h'
    · intro v hv hv'
      exact ha j' h' i j (by omega) h v hv' hv
    · exact hi.apart i i' j j' hne h h'
  ready := by
    intro i j b h
    rw [set_ws] at h
    split at h
    · exact hr j b h
    · exact hi.ready i j b h
  retry := by
    intro i j t h
    rw [set_ws] at h
    split at h
    · exact ht j t h
    · exact hi.retry i j t h

theorem inv_keep {s : Sys} (hi : Inv s) {w : Nat} {j : Job} (hw : (s.ws w).job = some j) (x : W)
    (hx : x.job = some j ∨ x.job = none)
    (hr : ∀ j b, x = .ready j b → j.tx.read ≤ b ∧ Checked s.hist s.gone j b)
    (ht : ∀ j t, x = .retry j t → 1 ≤ t ∧ j.tx.read < t ∧ Checked s.hist s.gone j (t - 1)) : Inv (s.set w x) := by
  have hjj : ∀ j', x.job = some j' → j' = j := by
    intro j' h; rcases hx with hx | hx <;> rw [hx] at h <;> cases h; rfl
  refine inv_set hi w x ?_ ?_ hr ht
  · intro j' h; rw [hjj j' h]; exact hi.jobs w j hw
  · intro j' h w' j'' hne h''
    rw [hjj j' h]
    exact hi.apart w w' j j'' (by omega) hw h''

theorem inv_step {s t : Sys} (hi : Inv s) (hs : Step s t) : Inv t := by
  cases hs with
  | create w j m ix hw h0 fs sch up hop hr hread hprep hatt =>
    have hnone : ∀ i j', (s.ws i).job = some j' → False := by
      intro i j' h
      obtain ⟨b, hb, _⟩ := (hi.jobs i j' h).prep
      rw [h0] at hb; simp [Hist.look] at hb
    refine inv_set (s := { s with hist := [⟨j, m, ix, []⟩] }) ?_ w _ ?_ ?_ ?_ ?_
    · exact {
        valid := Valid.first j m ix fs sch up hop hr hread hprep hatt
        jobs := fun i j' h => (hnone i j' h).elim
        apart := fun i i' a b _ h _ => (hnone i a h).elim
        ready := fun i a b h => (hnone i a (by rw [show s.ws i = _ from h]; rfl)).elim
        retry := fun i a b h => (hnone i a (by rw [show s.ws i = _ from h]; rfl)).elim }
    · intro j' h; simp [W.job] at h
    · intro j' h; simp [W.job] at h
    · intro j' b h; cases h
    · intro j' b h; cases h
  | begin w j e hw hread hav hex hprep =>
    refine inv_set hi w _ ?_ ?_ ?_ ?_
    · intro j' h; simp only [W.job, Option.some.injEq] at h; subst h
      exact ⟨⟨e, hread, hprep⟩, hex.2⟩
    · intro j' h w' j'' hne h''; simp only [W.job, Option.some.injEq] at h; subst h
      exact hex.1 w' j'' h''
    · intro j' b h; cases h
    · intro j' b h; cases h
  | check w j order cached hw hord hok =>
    obtain ⟨b, hb, _⟩ := (hi.jobs w j (by rw [hw]; rfl)).prep
    refine inv_keep hi (by rw [hw]; rfl) _ (Or.inl rfl) ?_ (by intro _ _ h; cases h)
    intro j' b' h
    cases h
    refine ⟨(look_le hb).2, Nat.le_refl _, fun hg v h1 h2 => ⟨cached, ?_⟩⟩
    apply hok
    rw [takeWhile_all]
    · exact hord.mem_iff.2 (mem_versionsAfter.2 ⟨h1, h2⟩)
    · intro a ha
      obtain ⟨h3, h4⟩ := mem_versionsAfter.1 (hord.mem_iff.1 ha)
      simp [hg a h3 h4]
  | commit w j p h m ix hw hh hnw hatt =>
    have hjob : (s.ws w).job = some j := by rw [hw]; rfl
    obtain ⟨b, hb, hp⟩ := (hi.jobs w j hjob).prep
    have hex := (hi.jobs w j hjob).excl
    obtain ⟨hle, hc⟩ := hi.ready w j _ hw
    have hval : Valid (⟨j, m, ix, s.gone⟩ :: s.hist) := by
      rw [hh]
      refine Valid.next _ p h b (by rw [← hh]; exact hi.valid) ?_ ?_ ?_ hnw ?_ ?_
      · rw [← hh]; exact hb
      · rw [← hh]; exact hp
      · rw [← hh]; exact hex
      · rw [hh] at hatt; simp only [List.length_cons] at hatt; exact hatt
      · intro hcl v h1 h2
        rw [← hh]
        refine hc.2 ?_ v h1 (by rw [hh]; exact h2)
        intro v' h3 h4 h5
        refine hcl v' h3 ?_ h5
        rw [hh] at h4; simp only [List.length_cons] at h4; omega
    -- drop the committed job first, then grow the history
    have hidle : Inv (s.set w .idle) := inv_keep hi hjob .idle (Or.inr rfl) (by intro _ _ h; cases h) (by intro _ _ h; cases h)
    have hgrow : Inv { (s.set w .idle) with hist := ⟨j, m, ix, s.gone⟩ :: s.hist } := {
      valid := hval
      jobs := by
        intro i j' h'
        have hok := hidle.jobs i j' h'
        obtain ⟨b', hb', hp'⟩ := hok.prep
        refine ⟨⟨b', look_cons_some _ hb', prepared_cons _ hp'⟩, ?_⟩
        intro x hx v hv
        rcases List.mem_cons.1 hx with rfl | hx
        · have hiw : i ≠ w := by
            intro e; subst e
            rw [show ({ (s.set i .idle) with hist := _ } : Sys).ws i = .idle by simp [Sys.set]] at h'
            simp [W.job] at h'
          have h'' : (s.ws i).job = some j' := by
            rw [show ({ (s.set w .idle) with hist := _ } : Sys).ws i = s.ws i by simp [Sys.set, hiw]] at h'
            exact h'
          intro hv'
          exact hi.apart w i j j' (by omega) hjob h'' v hv' hv
        · exact hok.excl x hx v hv
      apart := hidle.apart
      ready := fun i j' b' h' => ⟨(hidle.ready i j' b' h').1, checked_cons _ (hidle.ready i j' b' h').2⟩
      retry := fun i j' t' h' =>
        ⟨(hidle.retry i j' t' h').1, (hidle.retry i j' t' h').2.1, checked_cons _ (hidle.retry i j' t' h').2.2⟩ }
    have hfin := inv_set hgrow w (.done j (s.hist.length + 1))
      (by intro j' h'; simp [W.job] at h') (by intro j' h'; simp [W.job] at h')
      (by intro _ _ h; cases h) (by intro _ _ h; cases h)
    have heq : ({ (s.set w .idle) with hist := ⟨j, m, ix, s.gone⟩ :: s.hist } : Sys).set w (.done j (s.hist.length + 1)) =
        ({ s with hist := ⟨j, m, ix, s.gone⟩ :: s.hist } : Sys).set w (.done j (s.hist.length + 1)) := by
      unfold Sys.set
      congr 1
      funext i
      by_cases hiw : i = w <;> simp [hiw]
    rw [← heq]
    exact hfin
  | lose w j base hw hb hg =>
    refine inv_keep hi (by rw [hw]; rfl) _ (Or.inl rfl) (by intro _ _ h; cases h) ?_
    intro j' t h
    cases h
    obtain ⟨h1, h2⟩ := hi.ready w j base hw
    refine ⟨by omega, by omega, ?_⟩
    rw [Nat.add_sub_cancel]; exact h2
  | late w j base hw hb hg =>
    exact inv_keep hi (by rw [hw]; rfl) _ (Or.inr rfl) (by intro _ _ h; cases h) (by intro _ _ h; cases h)
  | recheck w j target cached hw hok =>
    refine inv_keep hi (by rw [hw]; rfl) _ (Or.inl rfl) ?_ (by intro _ _ h; cases h)
    intro j' b h
    cases h
    obtain ⟨h1, h2, h3⟩ := hi.retry w j target hw
    have := h3.1
    obtain ⟨b', hb', _⟩ := (hi.jobs w j (by rw [hw]; rfl)).prep
    refine ⟨(look_le hb').2, Nat.le_refl _, fun hg v h4 h5 => ?_⟩
    by_cases hv : v ≤ target - 1
    · exact h3.2 (fun u h6 h7 => hg u h6 (by omega)) v h4 hv
    · exact ⟨cached, (hok v (mem_versionsAfter.2 ⟨by omega, h5⟩)).2⟩
  | cleanup v hv =>
    exact {
      valid := hi.valid
      jobs := hi.jobs
      apart := hi.apart
      ready := fun i j b h => ⟨(hi.ready i j b h).1, checked_gone (hi.ready i j b h).2⟩
      retry := fun i j t h => ⟨(hi.retry i j t h).1, (hi.retry i j t h).2.1, checked_gone (hi.retry i j t h).2.2⟩ }
  | stop w =>
    exact inv_set hi w _ (by intro j' h'; simp [W.job] at h') (by intro j' h'; simp [W.job] at h')
      (by intro _ _ h; cases h) (by intro _ _ h; cases h)

theorem inv_reach {s : Sys} (h : Reach s) : Inv s := by
  induction h with
  | init =>
    exact {
      valid := Valid.nil
      jobs := by intro w j h; simp [Sys.init, W.job] at h
      apart := by intro w w' j j' _ h; simp [Sys.init, W.job] at h
      ready := by intro w j b h; simp [Sys.init] at h
      retry := by intro w j b h; simp [Sys.init] at h }
  | step _ hs ih => exact inv_step ih hs

theorem valid_of_reach {s : Sys} (h : Reach s) : Valid s.hist := (inv_reach h).valid

end Verif.Txn
