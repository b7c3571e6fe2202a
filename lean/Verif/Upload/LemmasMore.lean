import Verif.Upload.LemmasRun

/-!
# Sizes of parts, wakers and completion
-/
namespace Verif.Upload

/-- How large the parts are (149-162): all of the initial size if the store wants that, else growing by a step every
hundred parts. -/
def partSize (c : Conf) (i : Nat) : Nat :=
  if c.constant = true ∨ i = 0 then c.init else max c.init (((i - 1) / 100 + 1) * c.step)

theorem nextCap_eq (c : Conf) (n : Nat) : nextCap c n = partSize c (n + 1) := by
  unfold nextCap partSize
  cases c.constant <;> simp

theorem partSize_zero (c : Conf) : partSize c 0 = c.init := by unfold partSize; simp

theorem partSize_pos {c : Conf} (h : 0 < c.init) (i : Nat) : 0 < partSize c i := by
  unfold partSize
  split <;> omega

/-! ### Parts in flight -/

def Flight (c : Conf) (w : W) : Prop :=
  match w.state with
  | .inProgress _ ts => ts.length ≤ c.par
  | _ => True

theorem step_flight {c : Conf} (hc : 0 < c.par) : ∀ b w w', Step c b w w' → Flight c w → Flight c w' := by
  intro b w w' h hf
  cases h with
  | create _ hst => exact hc
  | store _ n ts k t hst ht =>
    unfold Flight at hf ⊢
    rw [hst] at hf
    exact Nat.le_trans (List.eraseIdx_sublist ts k).length_le hf
  | fail _ n ts k t hst ht =>
    unfold Flight at hf ⊢
    rw [hst] at hf
    exact Nat.le_trans (List.eraseIdx_sublist ts k).length_le hf
  | retry _ n ts k t hst ht hr =>
    unfold Flight at hf ⊢
    rw [hst] at hf
    have hk : k < ts.length := (List.getElem?_eq_some_iff.mp ht).1
    have := List.length_eraseIdx_of_lt hk
    simp only [List.length_append, List.length_cons, List.length_nil]
    simp only at hf
    omega
  | _ => exact trivial

theorem poll_flight {c : Conf} (hc : 0 < c.par) {op : Op} {w : W} {p : Polled} (h : Flight c w)
    (hp : poll c op w = some p) : Flight c p.w := by
  cases op with
  | write buf o =>
    refine pollWrite_keeps c (Flight c) (step_flight hc) (fun w bs _ h => h) ?_ h hp
    intro w w' h hf
    unfold startNext at h
    split at h
    · split at h
      · cases h; exact trivial
      · rename_i n ts hst
        split at h
        · rename_i hl
          split at h
          · cases h
            unfold Flight
            simp only [List.length_append, List.length_cons, List.length_nil]
            omega
          · cases h
        · cases h; exact hf
      · cases h; exact hf
    · cases h; exact hf
  | flush o => exact pollFlush_keeps c (Flight c) (step_flight hc) h hp
  | shutdown o =>
    refine shutdownLoop_keeps c (Flight c) (step_flight hc) ?_ 5 o w false p h hp
    intro w w' h hf
    cases h with
    | single hst => exact trivial
    | last n ts hst hb hl =>
      unfold Flight
      simp only [List.length_append, List.length_cons, List.length_nil]
      omega
    | finish n hst hb => exact trivial

/-! ### Sizes -/

def Exact (c : Conf) (up : List (List Nat)) : Prop := ∀ i d, up[i]? = some d → d.length = partSize c i

/-- Only the last part may be smaller. -/
def AtMost (c : Conf) (up : List (List Nat)) : Prop :=
  ∀ i d, up[i]? = some d → 0 < d.length ∧ d.length ≤ partSize c i ∧ (i + 1 < up.length → d.length = partSize c i)

theorem Exact.atMost {c : Conf} (hi : 0 < c.init) {up : List (List Nat)} (h : Exact c up) : AtMost c up :=
  fun i d hd => ⟨by rw [h i d hd]; exact partSize_pos hi i, Nat.le_of_eq (h i d hd), fun _ => h i d hd⟩

theorem Exact.snoc {c : Conf} {up : List (List Nat)} (h : Exact c up) {d : List Nat} (hd : d.length = partSize c up.length) :
    Exact c (up ++ [d]) := by
  intro i x hx
  by_cases hi : i < up.length
  · rw [List.getElem?_append_left hi] at hx
    exact h i x hx
  · rw [List.getElem?_append_right (by omega)] at hx
    have hi' : i - up.length = 0 := by
      have := (List.getElem?_eq_some_iff.mp hx).1
      simp at this
      omega
    rw [hi'] at hx
    simp at hx
    subst hx
    rw [hd]
    congr 1
    omega

theorem Exact.last {c : Conf} (hi : 0 < c.init) {up : List (List Nat)} (h : Exact c up) {d : List Nat} (hne : d ≠ [])
    (hd : d.length ≤ partSize c up.length) : AtMost c (up ++ [d]) := by
  intro i x hx
  by_cases hlt : i < up.length
  · rw [List.getElem?_append_left hlt] at hx
    obtain ⟨h1, h2, h3⟩ := h.atMost hi i x hx
    exact ⟨h1, h2, fun _ => h i x hx⟩
  · rw [List.getElem?_append_right (by omega)] at hx
    have hi' : i - up.length = 0 := by
      have := (List.getElem?_eq_some_iff.mp hx).1
      simp at this
      omega
    rw [hi'] at hx
    simp at hx
    subst hx
    have he : i = up.length := by omega
    subst he
    refine ⟨List.length_pos_iff.mpr hne, hd, ?_⟩
    intro hc
    simp at hc

/-- Before a shutdown. -/
def Sized (c : Conf) (w : W) : Prop :=
  match w.state with
  | .started => w.upload = [] ∧ w.cap = partSize c 0 ∧ w.buffer.length ≤ w.cap
  | .creating => w.upload = [] ∧ w.cap = partSize c 0 ∧ w.buffer.length = w.cap
  | .inProgress n _ => w.resets = 0 → Exact c w.upload ∧ n = w.upload.length ∧ w.cap = partSize c n ∧ w.buffer.length ≤ w.cap
  | .broken => w.upload = []
  | _ => False

theorem exact_nil (c : Conf) : Exact c [] := fun i d h => by simp at h

theorem step_sized {c : Conf} : ∀ b w w', Step c b w w' → Sized c w → Sized c w' := by
  intro b w w' h hw
  unfold Sized at hw ⊢
  cases h with
  | create _ hst =>
    rw [hst] at hw
    intro _
    obtain ⟨h1, h2, h3⟩ := hw
    refine ⟨?_, ?_, by rw [nextCap_eq], Nat.zero_le _⟩
    · have := (exact_nil c).snoc (d := w.buffer) (by rw [h3, h2]; rfl)
      simp only [W.call, h1]
      exact this
    · simp only [W.call, h1]
      rfl
  | store _ n ts k t hst ht =>
    rw [hst] at hw
    exact hw
  | fail _ n ts k t hst ht =>
    rw [hst] at hw
    exact hw
  | retry _ n ts k t hst ht hr =>
    intro h0
    simp at h0
  | put _ d hst => rw [hst] at hw; exact hw.elim
  | complete _ b hst => rw [hst] at hw; exact hw.elim
  | «break» _ hst =>
    rcases hst with hst | ⟨d, hst⟩ | hst
    · rw [hst] at hw; exact hw.1
    · rw [hst] at hw; exact hw.elim
    · rw [hst] at hw; exact hw.elim

theorem poll_sized {c : Conf} {op : Op} (hop : op.isShutdown = false) {w : W} {p : Polled} (h : Sized c w)
    (hp : poll c op w = some p) : Sized c p.w := by
  cases op with
  | write buf o =>
    refine pollWrite_keeps c (Sized c) step_sized ?_ ?_ h hp
    · intro w bs hn hw
      unfold Sized at hw ⊢
      cases hst : w.state with
      | started =>
        rw [hst] at hw
        refine ⟨hw.1, hw.2.1, ?_⟩
        have := hw.2.2
        simp only [List.length_append]
        omega
      | creating =>
        rw [hst] at hw
        refine ⟨hw.1, hw.2.1, ?_⟩
        have := hw.2.2
        simp only [List.length_append]
        omega
      | inProgress n ts =>
        rw [hst] at hw
        intro h0
        obtain ⟨h1, h2, h3, h4⟩ := hw h0
        refine ⟨h1, h2, h3, ?_⟩
        simp only [List.length_append]
        omega
      | putting d => rw [hst] at hw; exact hw
      | completing => rw [hst] at hw; exact hw
      | done => rw [hst] at hw; exact hw
      | broken => rw [hst] at hw; exact hw
    · intro w w' hn hw
      unfold startNext at hn
      split at hn
      · rename_i hcap
        split at hn
        · rename_i hst
          cases hn
          unfold Sized at hw ⊢
          rw [hst] at hw
          exact ⟨hw.1, hw.2.1, hcap.symm⟩
        · rename_i n ts hst
          split at hn
          · split at hn
            · cases hn
              unfold Sized at hw ⊢
              rw [hst] at hw
              intro h0
              obtain ⟨h1, h2, h3, h4⟩ := hw h0
              refine ⟨?_, ?_, by rw [nextCap_eq], Nat.zero_le _⟩
              · exact h1.snoc (by rw [← hcap, h3, h2])
              · simp only [W.call, List.length_append, List.length_cons, List.length_nil]
                omega
            · cases hn
          · cases hn; exact hw
        · cases hn; exact hw
      · cases hn; exact hw
  | flush o => exact pollFlush_keeps c (Sized c) step_sized h hp
  | shutdown o => cases hop

/-- At any time, if the polls after the first one of a shutdown are polls of the shutdown. -/
def SizedAll (c : Conf) (w : W) : Prop :=
  match w.state with
  | .started => w.upload = [] ∧ w.cap = partSize c 0 ∧ w.buffer.length ≤ w.cap
  | .creating => w.upload = [] ∧ w.cap = partSize c 0 ∧ w.buffer.length = w.cap
  | _ => w.resets = 0 → AtMost c w.upload ∧ (w.buffer ≠ [] → w.state ≠ .broken → Exact c w.upload ∧ w.buffer.length ≤ partSize c w.upload.length)

theorem sizedAll_of {c : Conf} (hi : 0 < c.init) {w : W} (h : Sized c w) : SizedAll c w := by
  unfold Sized at h
  unfold SizedAll
  cases hst : w.state with
  | started => rw [hst] at h; exact h
  | creating => rw [hst] at h; exact h
  | inProgress n ts =>
    rw [hst] at h
    intro h0
    obtain ⟨h1, h2, h3, h4⟩ := h h0
    exact ⟨h1.atMost hi, fun _ _ => ⟨h1, by rw [← h2, ← h3]; exact h4⟩⟩
  | putting d => rw [hst] at h; exact h.elim
  | completing => rw [hst] at h; exact h.elim
  | done => rw [hst] at h; exact h.elim
  | broken =>
    rw [hst] at h
    intro h0
    refine ⟨?_, fun _ hn => absurd rfl hn⟩
    rw [h]
    intro i d hd
    simp at hd

theorem atMost_nil (c : Conf) : AtMost c [] := fun i d h => by simp at h

theorem step_sizedAll {c : Conf} (hi : 0 < c.init) : ∀ b w w', Step c b w w' → SizedAll c w → SizedAll c w' := by
  intro b w w' h hw
  unfold SizedAll at hw ⊢
  cases h with
  | create _ hst =>
    rw [hst] at hw
    intro _
    obtain ⟨h1, h2, h3⟩ := hw
    refine ⟨?_, fun hb => absurd rfl hb⟩
    have := ((exact_nil c).snoc (d := w.buffer) (by rw [h3, h2]; rfl)).atMost hi
    simp only [W.call, h1]
    exact this
  | store _ n ts k t hst ht =>
    rw [hst] at hw
    intro h0
    exact ⟨(hw h0).1, fun hb _ => (hw h0).2 hb (fun h => nomatch h)⟩
  | fail _ n ts k t hst ht =>
    rw [hst] at hw
    intro h0
    exact ⟨(hw h0).1, fun hb _ => (hw h0).2 hb (fun h => nomatch h)⟩
  | retry _ n ts k t hst ht hr =>
    intro h0
    simp at h0
  | put _ d hst =>
    rw [hst] at hw
    intro h0
    exact ⟨(hw h0).1, fun hb _ => (hw h0).2 hb (fun h => nomatch h)⟩
  | complete _ b hst =>
    rw [hst] at hw
    intro h0
    exact ⟨(hw h0).1, fun hb _ => (hw h0).2 hb (fun h => nomatch h)⟩
  | «break» _ hst =>
    intro h0
    refine ⟨?_, fun _ hn => absurd rfl hn⟩
    rcases hst with hst | ⟨d, hst⟩ | hst
    · rw [hst] at hw
      simp only [hw.1]
      exact atMost_nil c
    · rw [hst] at hw
      exact (hw h0).1
    · rw [hst] at hw
      exact (hw h0).1

theorem down_sizedAll {c : Conf} (hi : 0 < c.init) : ∀ w w', Down c w w' → SizedAll c w → SizedAll c w' := by
  intro w w' h hw
  unfold SizedAll at hw ⊢
  cases h with
  | single hst =>
    rw [hst] at hw
    intro _
    refine ⟨?_, fun hb => absurd rfl hb⟩
    simp only [hw.1]
    exact atMost_nil c
  | last n ts hst hb hl =>
    rw [hst] at hw
    intro h0
    obtain ⟨h1, h2⟩ := (hw h0).2 hb (fun h => nomatch h)
    exact ⟨h1.last hi hb h2, fun hb => absurd rfl hb⟩
  | finish n hst hb =>
    rw [hst] at hw
    intro h0
    exact ⟨(hw h0).1, fun hb _ => (hw h0).2 hb (fun h => nomatch h)⟩

/-! ### Wakers -/

def Final (w : W) : Prop :=
  match w.state with
  | .putting _ => True
  | .completing => True
  | .done => True
  | .broken => True
  | _ => False

theorem step_final {c : Conf} : ∀ b w w', Step c b w w' → Final w → Final w' := by
  intro b w w' h hf
  unfold Final at hf ⊢
  cases h with
  | create _ hst => rw [hst] at hf; exact hf.elim
  | store _ n ts k t hst ht => rw [hst] at hf; exact hf.elim
  | fail _ n ts k t hst ht => rw [hst] at hf; exact hf.elim
  | retry _ n ts k t hst ht hr => rw [hst] at hf; exact hf.elim
  | _ => exact trivial

def Drained (w : W) : Prop := w.buffer = [] ∧ ∃ n ts, w.state = .inProgress n ts

theorem step_drained {c : Conf} : ∀ b w w', Step c b w w' → Drained w → Drained w' := by
  intro b w w' h hd
  obtain ⟨hb, n', ts', hs⟩ := hd
  cases h with
  | create _ hst => rw [hst] at hs; cases hs
  | store _ n ts k t hst ht => exact ⟨hb, _, _, rfl⟩
  | fail _ n ts k t hst ht => exact ⟨hb, _, _, rfl⟩
  | retry _ n ts k t hst ht hr => exact ⟨hb, _, _, rfl⟩
  | put _ d hst => rw [hst] at hs; cases hs
  | complete _ b hst => rw [hst] at hs; cases hs
  | «break» _ hst =>
    rcases hst with hst | ⟨d, hst⟩ | hst <;> (rw [hst] at hs; cases hs)

theorem not_idle {c : Conf} {o : List Ans} {w : W} {r : Res} (hr : pollTasks c o w = some r) (he : r.err = false)
    (hn : ¬ Idle r.w) : r.pend = true := by
  rcases Bool.eq_false_or_eq_true r.pend with h | h
  · exact h
  · exact absurd (pollTasks_idle c o w r hr he h) hn

theorem shutdown_wakes_final {c : Conf} (fuel : Nat) (o : List Ans) (w : W) (b : Bool) (p : Polled) (h : Final w)
    (hp : shutdownLoop c (fuel + 1) o w b = some p) (ho : p.out = .pending) : p.pend = true := by
  unfold shutdownLoop at hp
  cases hr : pollTasks c o w with
  | none => rw [hr] at hp; cases hp
  | some r =>
    rw [hr] at hp
    have hi := pollTasks_keeps c Final step_final o w r h hr
    unfold Final at hi
    simp only at hp
    split at hp
    · cases hp; cases ho
    · rename_i he
      have he' : r.err = false := by simpa using he
      split at hp
      · cases hp; cases ho
      · rename_i hst
        rw [hst] at hi
        exact hi.elim
      · rename_i hst
        rw [hst] at hi
        exact hi.elim
      · rename_i h1 h2 h3
        cases hp
        have := not_idle hr he' (by
          rintro (k | k | ⟨n, k⟩)
          · exact h2 k
          · exact h1 k
          · exact h3 _ _ k)
        simp [this]

theorem shutdown_wakes_drained {c : Conf} (fuel : Nat) (o : List Ans) (w : W) (b : Bool) (p : Polled) (h : Drained w)
    (hp : shutdownLoop c (fuel + 2) o w b = some p) (ho : p.out = .pending) : p.pend = true := by
  unfold shutdownLoop at hp
  cases hr : pollTasks c o w with
  | none => rw [hr] at hp; cases hp
  | some r =>
    rw [hr] at hp
    obtain ⟨hb, n, ts, hs⟩ := pollTasks_keeps c Drained step_drained o w r h hr
    simp only [hs] at hp
    split at hp
    · cases hp; cases ho
    · rename_i he
      have he' : r.err = false := by simpa using he
      split at hp
      · rename_i hc
        exact absurd hb hc.1
      · split at hp
        · exact shutdown_wakes_final fuel _ _ _ p (by exact trivial) hp ho
        · rename_i ht
          cases hp
          have := not_idle hr he' (by
            rintro (k | k | ⟨n, k⟩)
            · rw [hs] at k; cases k
            · rw [hs] at k; cases k
            · rw [hs] at k; cases k; exact ht rfl)
          simp [this]

/-- A shutdown that is pending will be woken. -/
theorem shutdown_wakes {c : Conf} (o : List Ans) (w : W) (p : Polled) (hp : pollShutdown c o w = some p)
    (ho : p.out = .pending) : p.pend = true := by
  unfold pollShutdown at hp
  unfold shutdownLoop at hp
  cases hr : pollTasks c o w with
  | none => rw [hr] at hp; cases hp
  | some r =>
    rw [hr] at hp
    simp only at hp
    split at hp
    · cases hp; cases ho
    · rename_i he
      have he' : r.err = false := by simpa using he
      split at hp
      · cases hp; cases ho
      · exact shutdown_wakes_final 3 _ _ _ p (by exact trivial) hp ho
      · rename_i n ts hst
        split at hp
        · exact shutdown_wakes_drained 2 _ _ _ p ⟨rfl, _, _, rfl⟩ hp ho
        · split at hp
          · exact shutdown_wakes_final 3 _ _ _ p (by exact trivial) hp ho
          · rename_i ht
            cases hp
            have := not_idle hr he' (by
              rintro (k | k | ⟨n, k⟩)
              · rw [hst] at k; cases k
              · rw [hst] at k; cases k
              · rw [hst] at k; cases k; exact ht rfl)
            simp [this]
      · rename_i h1 h2 h3
        cases hp
        have := not_idle hr he' (by
          rintro (k | k | ⟨n, k⟩)
          · exact h2 k
          · exact h1 k
          · exact h3 _ _ k)
        simp [this]

theorem flush_wakes {c : Conf} (o : List Ans) (w : W) (p : Polled) (hp : pollFlush c o w = some p)
    (ho : p.out = .pending) : p.pend = true := by
  unfold pollFlush at hp
  cases hr : pollTasks c o w with
  | none => rw [hr] at hp; cases hp
  | some r =>
    rw [hr] at hp
    simp only at hp
    split at hp
    · cases hp; cases ho
    · rename_i he
      have he' : r.err = false := by simpa using he
      split at hp
      · cases hp; cases ho
      · cases hp; cases ho
      · cases hp; cases ho
      · rename_i h1 h2 h3
        cases hp
        exact not_idle hr he' (by
          rintro (k | k | ⟨n, k⟩)
          · exact h1 k
          · exact h2 k
          · exact h3 _ k)

/-! ### Completion -/

theorem eraseIdx_zero_cons {α : Type} (a : α) (l : List α) : (a :: l).eraseIdx 0 = l := rfl

/-- With enough successes all parts are stored. -/
theorem pollTasks_drain (c : Conf) : ∀ (ts : List Task) (n m : Nat) (w : W), w.state = .inProgress m ts →
    ts.length ≤ n → pollTasks c (List.replicate n (.ok 0)) w =
      some ⟨{ w with state := .inProgress m [], stored := (calls ts).reverse ++ w.stored },
        List.replicate (n - ts.length) (.ok 0), false, false⟩ := by
  intro ts
  induction ts with
  | nil =>
    intro n m w hst _
    have he : ({ w with state := .inProgress m [], stored := (calls []).reverse ++ w.stored } : W) = w := by
      cases w
      simp only at hst
      subst hst
      rfl
    rw [he]
    cases n with
    | zero =>
      simp only [List.replicate, pollTasks, hst]
      rfl
    | succ n =>
      simp only [List.replicate_succ, pollTasks, hst]
      rfl
  | cons t ts ih =>
    intro n m w hst hn
    cases n with
    | zero => simp at hn
    | succ n =>
      rw [List.replicate_succ]
      unfold pollTasks
      simp only [hst, reduceCtorEq, if_false, List.getElem?_cons_zero, eraseIdx_zero_cons]
      rw [ih n m _ rfl (by simp at hn; omega)]
      simp [calls]

/-- The store completes an upload all parts of which were stored. -/
def Accepts (fin : List (List Nat) → List Nat → Option (List Nat)) : Prop :=
  ∀ up st, (∀ i, i < up.length → i ∈ st) → fin up st = some up.flatten

theorem accepts_finish : Accepts finishStrict := by
  intro up st h
  unfold finishStrict
  rw [if_pos]
  rw [List.all_eq_true]
  intro i hi
  have := h i (List.mem_range.mp hi)
  simpa using this

theorem completing_ready {c : Conf} (ha : Accepts c.finish) (fuel n : Nat) (w : W) (b : Bool) (hst : w.state = .completing)
    (hall : ∀ i, i < w.upload.length → i ∈ w.stored) :
    ∃ p, shutdownLoop c (fuel + 1) (List.replicate (n + 1) (.ok 0)) w b = some p ∧ p.out = .ready 0 := by
  unfold shutdownLoop
  rw [List.replicate_succ]
  unfold pollTasks
  simp only [hst, ha _ _ hall]
  exact ⟨_, rfl, rfl⟩

theorem drained_ready {c : Conf} (ha : Accepts c.finish) (fuel n m : Nat) (ts : List Task) (w : W) (b : Bool)
    (hst : w.state = .inProgress m ts) (hb : w.buffer = [])
    (hall : ∀ i, i < w.upload.length → i ∈ w.stored ∨ i ∈ calls ts) (hn : ts.length + 1 ≤ n) :
    ∃ p, shutdownLoop c (fuel + 2) (List.replicate n (.ok 0)) w b = some p ∧ p.out = .ready 0 := by
  unfold shutdownLoop
  rw [pollTasks_drain c ts n m w hst (by omega)]
  simp only [hb, ne_eq, not_true_eq_false, false_and, if_false, if_true]
  obtain ⟨k, hk⟩ : ∃ k, n - ts.length = k + 1 := ⟨n - ts.length - 1, by omega⟩
  rw [hk]
  refine completing_ready ha fuel k _ _ rfl ?_
  intro i hi
  simp only [List.mem_append, List.mem_reverse]
  exact (hall i hi).symm

theorem shutdown_ready {c : Conf} (ha : Accepts c.finish) (hc : 0 < c.par) (n : Nat) (w : W)
    (hw : w.state = .started ∨ (w.state = .creating ∧ w.upload = []) ∨
      ∃ m ts, w.state = .inProgress m ts ∧ (∀ i, i < w.upload.length → i ∈ w.stored ∨ i ∈ calls ts) ∧ ts.length + 3 ≤ n)
    (hn : 3 ≤ n) : ∃ p, pollShutdown c (List.replicate n (.ok 0)) w = some p ∧ p.out = .ready 0 := by
  unfold pollShutdown
  obtain ⟨n', rfl⟩ : ∃ n', n = n' + 1 := ⟨n - 1, by omega⟩
  rcases hw with hst | ⟨hst, hu⟩ | ⟨m, ts, hst, hall, hlen⟩
  · unfold shutdownLoop
    rw [List.replicate_succ]
    unfold pollTasks
    simp only [hst]
    unfold shutdownLoop
    unfold pollTasks
    exact ⟨_, rfl, rfl⟩
  · unfold shutdownLoop
    rw [List.replicate_succ]
    unfold pollTasks
    simp only [hst]
    rw [pollTasks_drain c _ n' 1 _ rfl (by simp; omega)]
    simp only [ne_eq, not_true_eq_false, false_and, if_false, if_true, Bool.false_eq_true]
    obtain ⟨k, hk⟩ : ∃ k, n' - 1 = k + 1 := ⟨n' - 2, by omega⟩
    simp only [List.length_cons, List.length_nil, Nat.zero_add, hk]
    refine completing_ready ha 3 k _ _ rfl ?_
    intro i hi
    simp only [W.call, hu, List.length_append, List.length_cons, List.length_nil] at hi
    have : i = 0 := by omega
    simp [calls, hu, this]
  · unfold shutdownLoop
    rw [pollTasks_drain c ts _ m w hst (by omega)]
    simp only [Bool.false_eq_true, if_false]
    split
    · refine drained_ready ha 2 _ _ _ _ _ rfl rfl ?_ ?_
      · intro i hi
        simp only [W.call, List.length_append, List.length_cons, List.length_nil] at hi
        by_cases he : i = w.upload.length
        · exact Or.inr (by simp [calls, he])
        · refine Or.inl ?_
          simp only [W.call, List.mem_append, List.mem_reverse]
          exact (hall i (by omega)).symm
      · simp
        omega
    · rename_i hcnd
      simp only [if_true]
      obtain ⟨k, hk⟩ : ∃ k, n' + 1 - ts.length = k + 1 := ⟨n' - ts.length, by omega⟩
      rw [hk]
      refine completing_ready ha 3 k _ _ rfl ?_
      intro i hi
      simp only [List.mem_append, List.mem_reverse]
      exact (hall i hi).symm

/-! ### Nothing is lost without errors and resets -/

def Full (w : W) : Prop :=
  match w.state with
  | .started => w.upload = []
  | .creating => w.upload = []
  | .inProgress _ ts => w.resets = 0 → ¬ Lost w ts
  | .completing => w.resets = 0 → ¬ Lost w []
  | .broken => False
  | _ => True

theorem lost_call {w : W} {ts : List Task} {d : List Nat} {w' : W} (hu : w'.upload = w.upload ++ [d])
    (hst : w'.stored = w.stored) (h : Lost w' (ts ++ [⟨w.upload.length, d⟩])) : Lost w ts := by
  obtain ⟨i, h1, h2, h3⟩ := h
  rw [hu] at h1
  rw [hst] at h2
  simp only [List.length_append, List.length_cons, List.length_nil] at h1
  unfold calls at h3
  rw [List.map_append, List.mem_append] at h3
  simp only [List.map_cons, List.map_nil, List.mem_singleton] at h3
  exact ⟨i, by omega, h2, fun hc => h3 (Or.inl hc)⟩

theorem step_full {c : Conf} : ∀ w w', Step c true w w' → Full w → Full w' := by
  intro w w' h hf
  unfold Full at hf ⊢
  cases h with
  | create _ hst =>
    rw [hst] at hf
    intro _ hl
    have := lost_call (w := w) (ts := []) (d := w.buffer) (by rfl) (by rfl) hl
    obtain ⟨i, h1, _⟩ := this
    simp only at hf
    rw [hf] at h1
    simp at h1
  | store _ n ts k t hst ht =>
    rw [hst] at hf
    intro h0 hl
    refine hf h0 ?_
    obtain ⟨i, h1, h2, h3⟩ := hl
    simp only [List.mem_cons, not_or] at h2
    refine ⟨i, h1, h2.2, fun hc => ?_⟩
    rcases (calls_erase ht i).mp hc with h | h
    · exact h2.1 h
    · exact h3 h
  | retry _ n ts k t hst ht hr =>
    intro h0
    simp at h0
  | put _ d hst => exact trivial
  | complete _ b hst => exact trivial

theorem poll_full {c : Conf} {op : Op} {w : W} {p : Polled} (h : Full w)
    (hop : op.isShutdown = false) (hp : poll c op w = some p) (ho : p.out ≠ .error) : Full p.w := by
  cases op with
  | write buf o =>
    simp only [poll] at hp
    unfold pollWrite at hp
    cases hr : pollTasks c o w with
    | none => rw [hr] at hp; cases hp
    | some r =>
      rw [hr] at hp
      simp only at hp
      split at hp
      · cases hp; exact absurd rfl ho
      · rename_i he
        have hi := pollTasks_keeps_ok c Full step_full o w r h hr (by simpa using he)
        split at hp
        · cases hp
        · rename_i w' hw'
          have hi' : Full w' := by
            generalize hw0 : ({ r.w with
              buffer := r.w.buffer ++ buf.take (min (r.w.cap - r.w.buffer.length) buf.length),
              cursor := r.w.cursor + min (r.w.cap - r.w.buffer.length) buf.length } : W) = w0 at hw'
            have h0 : Full w0 := by
              rw [← hw0]
              exact hi
            unfold startNext at hw'
            split at hw'
            · split at hw'
              · rename_i hst
                cases hw'
                unfold Full at h0
                rw [hst] at h0
                exact h0
              · rename_i n ts hst
                split at hw'
                · split at hw'
                  · cases hw'
                    unfold Full at h0 ⊢
                    rw [hst] at h0
                    intro hz hl
                    exact h0 hz (lost_call (by rfl) (by rfl) hl)
                  · cases hw'
                · cases hw'; exact h0
              · cases hw'; exact h0
            · cases hw'; exact h0
          split at hp
          · cases hp
          · rename_i r' hr'
            split at hp
            · cases hp; exact absurd rfl ho
            · rename_i he'
              cases hp
              exact pollTasks_keeps_ok c Full step_full _ _ r' hi' hr' (by simpa using he')
  | flush o =>
    simp only [poll] at hp
    unfold pollFlush at hp
    cases hr : pollTasks c o w with
    | none => rw [hr] at hp; cases hp
    | some r =>
      rw [hr] at hp
      simp only at hp
      split at hp
      · cases hp; exact absurd rfl ho
      · rename_i he
        have hi := pollTasks_keeps_ok c Full step_full o w r h hr (by simpa using he)
        split at hp <;> (cases hp; exact hi)
  | shutdown o => cases hop

theorem run_full {c : Conf} : ∀ (ops : List Op), (∀ op ∈ ops, op.isShutdown = false) → ∀ (w : W) (r : W × List Out),
    Full w → run c ops w = some r → Out.error ∉ r.2 → Full r.1 := by
  intro ops
  induction ops with
  | nil =>
    intro _ w r h hr _
    cases hr
    exact h
  | cons op ops ih =>
    intro hops w r h hr hne
    unfold run at hr
    cases hp : poll c op w with
    | none => rw [hp] at hr; cases hr
    | some p =>
      rw [hp] at hr
      simp only [Option.map_eq_some_iff] at hr
      obtain ⟨x, hx, rfl⟩ := hr
      exact ih (fun op h => hops op (List.mem_cons_of_mem _ h)) p.w x
        (poll_full h (hops op List.mem_cons_self) hp (fun he => hne (by rw [he]; exact List.mem_cons_self))) hx
        (fun h => hne (List.mem_cons_of_mem _ h))

end Verif.Upload
