import Verif.Upload.Lemmas

/-!
# Runs of polls
-/
namespace Verif.Upload

/-- The steps of `poll_tasks`; the flag is false of those that fail. -/
inductive Step (c : Conf) : Bool → W → W → Prop
  | create (w : W) : w.state = .creating → Step c true w { w.call w.buffer with
      state := .inProgress 1 [⟨w.upload.length, w.buffer⟩], buffer := [], cap := nextCap c 0 }
  | store (w : W) (n : Nat) (ts : List Task) (k : Nat) (t : Task) : w.state = .inProgress n ts → ts[k]? = some t →
      Step c true w { w with state := .inProgress n (ts.eraseIdx k), stored := t.call :: w.stored }
  | fail (w : W) (n : Nat) (ts : List Task) (k : Nat) (t : Task) : w.state = .inProgress n ts → ts[k]? = some t →
      Step c false w { w with state := .inProgress n (ts.eraseIdx k) }
  | retry (w : W) (n : Nat) (ts : List Task) (k : Nat) (t : Task) : w.state = .inProgress n ts → ts[k]? = some t →
      w.resets < c.retries → Step c true w { w.call t.data with
        state := .inProgress n (ts.eraseIdx k ++ [⟨w.upload.length, t.data⟩]), resets := w.resets + 1 }
  | put (w : W) (d : List Nat) : w.state = .putting d → Step c true w { w with state := .done, object := some d }
  | complete (w : W) (b : List Nat) : w.state = .completing → c.finish w.upload w.stored = some b →
      Step c true w { w with state := .done, object := some b }
  | break (w : W) : w.state = .creating ∨ (∃ d, w.state = .putting d) ∨ w.state = .completing →
      Step c false w { w with state := .broken }

/-- What the steps keep, `poll_tasks` keeps. -/
theorem pollTasks_keeps (c : Conf) (P : W → Prop) (hP : ∀ b w w', Step c b w w' → P w → P w') :
    ∀ (o : List Ans) (w : W) (r : Res), P w → pollTasks c o w = some r → P r.w := by
  intro o
  induction o with
  | nil =>
    intro w r h hr
    unfold pollTasks at hr
    split at hr <;> first | (cases hr; exact h) | cases hr
  | cons a o ih =>
    intro w r h hr
    unfold pollTasks at hr
    split at hr
    · cases hr; exact h
    · cases hr; exact h
    · cases hr
    · rename_i hst
      split at hr
      · exact ih _ r (hP _ _ _ (.create w hst) h) hr
      · cases hr; exact h
      · cases hr; exact hP _ _ _ (.break w (Or.inl hst)) h
    · rename_i n tasks hst
      split at hr
      · cases hr; exact h
      · split at hr
        · cases hr; exact h
        · split at hr
          · cases hr; exact h
          · rename_i t ht
            exact ih _ r (hP _ _ _ (.store w n tasks _ t hst ht) h) hr
        · split at hr
          · cases hr; exact h
          · rename_i t ht
            cases hr
            exact hP _ _ _ (.fail w n tasks _ t hst ht) h
        · split at hr
          · cases hr; exact h
          · rename_i t ht
            split at hr
            · rename_i hlt
              exact ih _ r (hP _ _ _ (.retry w n tasks _ t hst ht hlt) h) hr
            · cases hr
              exact hP _ _ _ (.fail w n tasks _ t hst ht) h
    · rename_i d hst
      split at hr
      · cases hr; exact hP _ _ _ (.put w d hst) h
      · cases hr; exact h
      · cases hr; exact hP _ _ _ (.break w (Or.inr (Or.inl ⟨d, hst⟩))) h
    · rename_i hst
      split at hr
      · split at hr
        · rename_i b hb
          cases hr; exact hP _ _ _ (.complete w b hst hb) h
        · cases hr; exact hP _ _ _ (.break w (Or.inr (Or.inr hst))) h
      · cases hr; exact h
      · cases hr; exact hP _ _ _ (.break w (Or.inr (Or.inr hst))) h

/-- What the steps that do not fail keep, `poll_tasks` keeps unless it fails. -/
theorem pollTasks_keeps_ok (c : Conf) (P : W → Prop) (hP : ∀ w w', Step c true w w' → P w → P w') :
    ∀ (o : List Ans) (w : W) (r : Res), P w → pollTasks c o w = some r → r.err = false → P r.w := by
  intro o
  induction o with
  | nil =>
    intro w r h hr he
    unfold pollTasks at hr
    split at hr <;> first | (cases hr; exact h) | cases hr
  | cons a o ih =>
    intro w r h hr he
    unfold pollTasks at hr
    split at hr
    · cases hr; exact h
    · cases hr; exact h
    · cases hr
    · rename_i hst
      split at hr
      · exact ih _ r (hP _ _ (.create w hst) h) hr he
      · cases hr; exact h
      · cases hr; cases he
    · rename_i n tasks hst
      split at hr
      · cases hr; exact h
      · split at hr
        · cases hr; exact h
        · split at hr
          · cases hr; exact h
          · rename_i t ht
            exact ih _ r (hP _ _ (.store w n tasks _ t hst ht) h) hr he
        · split at hr
          · cases hr; exact h
          · rename_i t ht
            cases hr
            cases he
        · split at hr
          · cases hr; exact h
          · rename_i t ht
            split at hr
            · rename_i hlt
              exact ih _ r (hP _ _ (.retry w n tasks _ t hst ht hlt) h) hr he
            · cases hr
              cases he
    · rename_i d hst
      split at hr
      · cases hr; exact hP _ _ (.put w d hst) h
      · cases hr; exact h
      · cases hr; cases he
    · rename_i hst
      split at hr
      · split at hr
        · rename_i b hb
          cases hr; exact hP _ _ (.complete w b hst hb) h
        · cases hr; cases he
      · cases hr; exact h
      · cases hr; cases he

/-- Steps of a write: bytes are put in the buffer, the next request is started. -/
theorem pollWrite_keeps (c : Conf) (P : W → Prop) (hP : ∀ b w w', Step c b w w' → P w → P w')
    (hput : ∀ w bs, bs.length ≤ w.cap - w.buffer.length → P w →
      P { w with buffer := w.buffer ++ bs, cursor := w.cursor + bs.length })
    (hnext : ∀ w w', startNext c w = some w' → P w → P w') {buf : List Nat} {o : List Ans} {w : W} {p : Polled}
    (h : P w) (hp : pollWrite c buf o w = some p) : P p.w := by
  unfold pollWrite at hp
  cases hr : pollTasks c o w with
  | none => rw [hr] at hp; cases hp
  | some r =>
    rw [hr] at hp
    have hi := pollTasks_keeps c P hP o w r h hr
    simp only at hp
    split at hp
    · cases hp; exact hi
    · have hlen : (buf.take (min (r.w.cap - r.w.buffer.length) buf.length)).length
          = min (r.w.cap - r.w.buffer.length) buf.length := by rw [List.length_take]; omega
      have hp' := hput r.w (buf.take (min (r.w.cap - r.w.buffer.length) buf.length)) (by rw [hlen]; omega) hi
      rw [hlen] at hp'
      split at hp
      · cases hp
      · rename_i w' hw'
        have hi' := hnext _ _ hw' hp'
        split at hp
        · cases hp
        · rename_i r' hr'
          have hi'' := pollTasks_keeps c P hP _ _ _ hi' hr'
          split at hp
          · cases hp; exact hi''
          · cases hp; exact hi''

theorem pollFlush_keeps (c : Conf) (P : W → Prop) (hP : ∀ b w w', Step c b w w' → P w → P w') {o : List Ans} {w : W}
    {p : Polled} (h : P w) (hp : pollFlush c o w = some p) : P p.w := by
  unfold pollFlush at hp
  cases hr : pollTasks c o w with
  | none => rw [hr] at hp; cases hp
  | some r =>
    rw [hr] at hp
    have hi := pollTasks_keeps c P hP o w r h hr
    simp only at hp
    split at hp
    · cases hp; exact hi
    · split at hp <;> (cases hp; exact hi)

/-- Steps of a shutdown. -/
inductive Down (c : Conf) : W → W → Prop
  | single (w : W) : w.state = .started → Down c w { w with state := .putting w.buffer, buffer := [], cap := 0 }
  | last (w : W) (n : Nat) (ts : List Task) : w.state = .inProgress n ts → w.buffer ≠ [] → ts.length < c.par →
      Down c w { w.call w.buffer with
        state := .inProgress n (ts ++ [⟨w.upload.length, w.buffer⟩]), buffer := [], cap := 0 }
  | finish (w : W) (n : Nat) : w.state = .inProgress n [] → (w.buffer = [] ∨ c.par = 0) →
      Down c w { w with state := .completing }

theorem shutdownLoop_keeps (c : Conf) (P : W → Prop) (hP : ∀ b w w', Step c b w w' → P w → P w')
    (hd : ∀ w w', Down c w w' → P w → P w') : ∀ (fuel : Nat) (o : List Ans) (w : W) (b : Bool) (p : Polled),
    P w → shutdownLoop c fuel o w b = some p → P p.w := by
  intro fuel
  induction fuel with
  | zero =>
    intro o w b p h hp
    cases hp
    exact h
  | succ fuel ih =>
    intro o w b p h hp
    unfold shutdownLoop at hp
    cases hr : pollTasks c o w with
    | none => rw [hr] at hp; cases hp
    | some r =>
      rw [hr] at hp
      have hi := pollTasks_keeps c P hP o w r h hr
      simp only at hp
      split at hp
      · cases hp; exact hi
      · split at hp
        · cases hp; exact hi
        · rename_i hst
          exact ih _ _ _ p (hd _ _ (.single r.w hst) hi) hp
        · rename_i n tasks hst
          split at hp
          · rename_i hc
            exact ih _ _ _ p (hd _ _ (.last r.w n tasks hst hc.1 hc.2) hi) hp
          · rename_i hc
            split at hp
            · rename_i ht
              subst ht
              refine ih _ _ _ p (hd _ _ (.finish r.w n hst ?_) hi) hp
              by_cases hb : r.w.buffer = []
              · exact Or.inl hb
              · refine Or.inr ?_
                have : ¬ (0 < c.par) := fun h0 => hc ⟨hb, h0⟩
                omega
            · cases hp; exact hi
        · cases hp; exact hi

/-! ### Before the shutdown -/

/-- The writer has not begun to shut down. -/
def Open (w : W) : Prop :=
  match w.state with
  | .started => True
  | .creating => True
  | .inProgress _ _ => True
  | .broken => True
  | _ => False

theorem step_open {c : Conf} : ∀ b w w', Step c b w w' → Open w → Open w' := by
  intro b w w' h ho
  cases h with
  | put _ d hst => unfold Open at ho; rw [hst] at ho; exact ho.elim
  | complete _ b hst hf => unfold Open at ho; rw [hst] at ho; exact ho.elim
  | _ => exact trivial

theorem startNext_open {c : Conf} : ∀ w w', startNext c w = some w' → Open w → Open w' := by
  intro w w' h ho
  unfold startNext at h
  split at h
  · split at h
    · cases h; exact trivial
    · split at h
      · split at h
        · cases h; exact trivial
        · cases h
      · cases h; exact ho
    · cases h; exact ho
  · cases h; exact ho

/-- Is this poll one of a shutdown? -/
def Op.isShutdown : Op → Bool
  | .shutdown _ => true
  | _ => false

theorem poll_open {c : Conf} {op : Op} (hop : op.isShutdown = false) {w : W} {p : Polled} (h : Open w)
    (hp : poll c op w = some p) : Open p.w := by
  cases op with
  | write buf o => exact pollWrite_keeps c Open step_open (fun w bs _ h => h) startNext_open h hp
  | flush o => exact pollFlush_keeps c Open step_open h hp
  | shutdown o => cases hop

theorem run_open {c : Conf} : ∀ (ops : List Op), (∀ op ∈ ops, op.isShutdown = false) → ∀ (w : W) (r : W × List Out),
    Open w → run c ops w = some r → Open r.1 := by
  intro ops
  induction ops with
  | nil =>
    intro _ w r h hr
    cases hr
    exact h
  | cons op ops ih =>
    intro hops w r h hr
    unfold run at hr
    cases hp : poll c op w with
    | none => rw [hp] at hr; cases hr
    | some p =>
      rw [hp] at hr
      simp only [Option.map_eq_some_iff] at hr
      obtain ⟨x, hx, rfl⟩ := hr
      exact ih (fun op h => hops op (List.mem_cons_of_mem _ h)) p.w x
        (poll_open (hops op List.mem_cons_self) h hp) hx

theorem open_object {w : W} {log : List Nat} (h : Inv w log) (ho : Open w) : w.object = none := by
  obtain ⟨_, h⟩ := h
  unfold Open at ho
  cases hst : w.state with
  | started => rw [hst] at h; exact h.2.2.1
  | creating => rw [hst] at h; exact h.2.2.1
  | inProgress n ts => rw [hst] at h; exact h.1
  | putting d => rw [hst] at h; exact h.1
  | completing => rw [hst] at h; exact h.1
  | done => rw [hst] at ho; exact ho.elim
  | broken => rw [hst] at h; exact h

/-! ### After it -/

/-- Once a shutdown has taken the buffer nothing is in it. -/
def Emptied (w : W) : Prop :=
  match w.state with
  | .putting _ => w.buffer = []
  | .completing => w.buffer = []
  | .done => w.buffer = []
  | _ => True

theorem emptied_of_open {w : W} (h : Open w) : Emptied w := by
  unfold Open at h
  unfold Emptied
  cases hst : w.state <;> rw [hst] at h <;> first | trivial | exact h.elim

theorem step_emptied {c : Conf} : ∀ b w w', Step c b w w' → Emptied w → Emptied w' := by
  intro b w w' h he
  cases h with
  | put _ d hst => unfold Emptied at he; rw [hst] at he; exact he
  | complete _ b hst hf => unfold Emptied at he; rw [hst] at he; exact he
  | _ => exact trivial

theorem down_emptied {c : Conf} (hc : 0 < c.par) : ∀ w w', Down c w w' → Emptied w → Emptied w' := by
  intro w w' h he
  cases h with
  | single hst => rfl
  | last n ts hst hb hl => exact trivial
  | finish n hst hb =>
    rcases hb with hb | hb
    · exact hb
    · omega

/-! ### What was accepted -/

/-- The bytes that the caller was told were written. -/
def taken : Op × Out → List Nat
  | (.write buf _, .ready n) => buf.take n
  | _ => []

/-- The bytes that the caller was told were written, over some polls. -/
def accepted (ops : List Op) (outs : List Out) : List Nat := (ops.zip outs).flatMap taken

theorem poll_inv {c : Conf} (hs : Strict c.finish) {op : Op} {w : W} {log : List Nat} (h : Inv w log) {p : Polled}
    (hp : poll c op w = some p) :
    ∃ l, Inv p.w (log ++ l) ∧ (taken (op, p.out)).Sublist l ∧ (p.out ≠ .error → l = taken (op, p.out)) := by
  cases op with
  | write buf o =>
    obtain ⟨k, h1, h2, h3⟩ := pollWrite_inv hs h hp
    refine ⟨buf.take k, h1, ?_, ?_⟩
    · cases ho : p.out with
      | ready n => rw [(h2 n ho).1]; exact List.Sublist.refl _
      | pending => exact List.nil_sublist _
      | error => exact List.nil_sublist _
    · intro hne
      cases ho : p.out with
      | ready n => rw [(h2 n ho).1]; rfl
      | pending => rw [h3 ho]; rfl
      | error => exact absurd ho hne
  | flush o =>
    refine ⟨[], by simpa using pollFlush_inv hs h hp, ?_, ?_⟩
    · cases p.out <;> exact List.Sublist.refl _
    · intro _
      cases p.out <;> rfl
  | shutdown o =>
    refine ⟨[], by simpa using (shutdownLoop_inv hs 5 o w false log p h hp).1, ?_, ?_⟩
    · cases p.out <;> exact List.Sublist.refl _
    · intro _
      cases p.out <;> rfl

theorem run_inv {c : Conf} (hs : Strict c.finish) : ∀ (ops : List Op) (w : W) (log : List Nat) (r : W × List Out),
    Inv w log → run c ops w = some r → ∃ l, Inv r.1 (log ++ l) ∧ (accepted ops r.2).Sublist l ∧
      (Out.error ∉ r.2 → l = accepted ops r.2) := by
  intro ops
  induction ops with
  | nil =>
    intro w log r h hr
    cases hr
    exact ⟨[], by simpa using h, List.Sublist.refl _, fun _ => rfl⟩
  | cons op ops ih =>
    intro w log r h hr
    unfold run at hr
    cases hp : poll c op w with
    | none => rw [hp] at hr; cases hr
    | some p =>
      rw [hp] at hr
      simp only [Option.map_eq_some_iff] at hr
      obtain ⟨x, hx, rfl⟩ := hr
      obtain ⟨l1, k1, k2, k3⟩ := poll_inv hs h hp
      obtain ⟨l2, m1, m2, m3⟩ := ih p.w _ x k1 hx
      refine ⟨l1 ++ l2, by rw [← List.append_assoc]; exact m1, ?_, ?_⟩
      · exact k2.append m2
      · intro hne
        have h1 : p.out ≠ .error := fun he => hne (by rw [he]; exact List.mem_cons_self)
        rw [k3 h1, m3 (fun h => hne (List.mem_cons_of_mem _ h))]
        rfl

theorem run_append {c : Conf} : ∀ (as bs : List Op) (w : W) (r : W × List Out), run c (as ++ bs) w = some r →
    ∃ x y, run c as w = some x ∧ run c bs x.1 = some y ∧ r = (y.1, x.2 ++ y.2) := by
  intro as
  induction as with
  | nil =>
    intro bs w r h
    exact ⟨(w, []), r, rfl, h, rfl⟩
  | cons a as ih =>
    intro bs w r h
    rw [List.cons_append] at h
    unfold run at h
    cases hp : poll c a w with
    | none => rw [hp] at h; cases h
    | some p =>
      rw [hp] at h
      simp only [Option.map_eq_some_iff] at h
      obtain ⟨z, hz, rfl⟩ := h
      obtain ⟨x, y, h1, h2, h3⟩ := ih bs p.w z hz
      refine ⟨(x.1, p.out :: x.2), y, ?_, h2, by rw [h3]; rfl⟩
      unfold run
      rw [hp]
      simp only [h1, Option.map_some]

theorem run_length {c : Conf} : ∀ (ops : List Op) (w : W) (r : W × List Out), run c ops w = some r →
    r.2.length = ops.length := by
  intro ops
  induction ops with
  | nil =>
    intro w r h
    cases h
    rfl
  | cons a as ih =>
    intro w r h
    unfold run at h
    cases hp : poll c a w with
    | none => rw [hp] at h; cases h
    | some p =>
      rw [hp] at h
      simp only [Option.map_eq_some_iff] at h
      obtain ⟨z, hz, rfl⟩ := h
      simp [ih p.w z hz]

theorem run_emptied {c : Conf} (hc : 0 < c.par) : ∀ (os : List (List Ans)) (w : W) (r : W × List Out), Emptied w →
    run c (os.map .shutdown) w = some r → Emptied r.1 := by
  intro os
  induction os with
  | nil =>
    intro w r h hr
    cases hr
    exact h
  | cons o os ih =>
    intro w r h hr
    rw [List.map_cons] at hr
    unfold run at hr
    cases hp : poll c (.shutdown o) w with
    | none => rw [hp] at hr; cases hr
    | some p =>
      rw [hp] at hr
      simp only [Option.map_eq_some_iff] at hr
      obtain ⟨x, hx, rfl⟩ := hr
      exact ih p.w x (shutdownLoop_keeps c Emptied step_emptied (down_emptied hc) 5 o w false p h hp) hx

/-- A shutdown that is ready leaves the writer done. -/
theorem run_ready {c : Conf} (hs : Strict c.finish) : ∀ (os : List (List Ans)) (w : W) (log : List Nat) (r : W × List Out)
    (n : Nat), Inv w log → run c (os.map .shutdown) w = some r → r.2.getLast? = some (.ready n) → r.1.state = .done := by
  intro os
  induction os with
  | nil =>
    intro w log r n h hr hl
    cases hr
    cases hl
  | cons o os ih =>
    intro w log r n h hr hl
    rw [List.map_cons] at hr
    unfold run at hr
    cases hp : poll c (.shutdown o) w with
    | none => rw [hp] at hr; cases hr
    | some p =>
      rw [hp] at hr
      simp only [Option.map_eq_some_iff] at hr
      obtain ⟨x, hx, rfl⟩ := hr
      have hi := shutdownLoop_inv hs 5 o w false log p h hp
      cases hx2 : x.2 with
      | nil =>
        have := run_length _ _ _ hx
        rw [hx2] at this
        have hos : os = [] := by
          cases os with
          | nil => rfl
          | cons a b => simp at this
        subst hos
        cases hx
        simp at hl
        exact hi.2 n hl
      | cons y ys =>
        refine ih p.w log x n hi.1 hx ?_
        simp only [hx2] at hl ⊢
        rw [List.getLast?_cons_cons] at hl
        exact hl

end Verif.Upload
