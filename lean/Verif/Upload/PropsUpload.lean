import Verif.Upload.LemmasMore

/-!
# C93: an object holds the bytes that were written to it
-/
namespace Verif.Upload

/-- Settings that can be made: the first part is at least one step (5 MiB) large, and the store completes an upload if
and only if all of its parts were stored, with the parts in the order in which they were put. -/
structure Conf.Ok (c : Conf) : Prop where
  strict : Strict c.finish
  accepts : Accepts c.finish
  step : 0 < c.step
  init : c.step ≤ c.init

def Op.answers : Op → List Ans
  | .write _ o => o
  | .flush o => o
  | .shutdown o => o

def Ans.isErr : Ans → Bool
  | .err _ => true
  | _ => false

def Ans.isReset : Ans → Bool
  | .reset _ => true
  | _ => false

/-- C93, the contents: if the writes of a writer succeed and the shutdown, polled until it is ready, does, the object is
what was accepted by the writes, in order. -/
def C93_content_statement : Prop :=
  ∀ (c : Conf), c.Ok → ∀ (ops : List Op) (os : List (List Ans)) (w : W) (outs : List Out) (n : Nat),
    (∀ op ∈ ops, op.isShutdown = false) → os ≠ [] →
    run c (ops ++ os.map .shutdown) (W.new c) = some (w, outs) → Out.error ∉ outs → outs.getLast? = some (.ready n) →
    w.object = some (accepted ops outs)

/-- C93, progress: when a poll of a write of some bytes or of a shutdown is pending, something that was polled is
pending, so that the caller will be woken. -/
def C93_wakes_statement : Prop :=
  ∀ (c : Conf), c.Ok → ∀ (ops : List Op) (w : W) (outs : List Out) (op : Op) (p : Polled),
    (∀ op ∈ ops, op.isShutdown = false) → run c ops (W.new c) = some (w, outs) → Out.error ∉ outs →
    (∀ o, op ≠ .write [] o) → poll c op w = some p → p.out = .pending → p.pend = true

/-- C93, retries: an upload succeeds in spite of resets of connections up to the number of retries. -/
def C93_retries_statement : Prop :=
  ∀ (c : Conf), c.Ok → ∀ (ops : List Op) (os : List (List Ans)) (w : W) (outs : List Out),
    (∀ op ∈ ops, op.isShutdown = false) → run c (ops ++ os.map .shutdown) (W.new c) = some (w, outs) →
    (∀ op ∈ ops ++ os.map Op.shutdown, ∀ a ∈ op.answers, a.isErr = false) →
    (((ops ++ os.map Op.shutdown).flatMap Op.answers).filter Ans.isReset).length ≤ c.retries →
    Out.error ∉ outs

def C93_statement : Prop := C93_content_statement ∧ C93_wakes_statement ∧ C93_retries_statement

/-! ### What holds -/

theorem accepted_append (ops more : List Op) (outs : List Out) (h : ops.length ≤ outs.length)
    (hm : ∀ op ∈ more, op.isShutdown = true) : accepted (ops ++ more) outs = accepted ops outs := by
  induction ops generalizing outs with
  | nil =>
    simp only [List.nil_append, accepted, List.zip_nil_left, List.flatMap_nil]
    rw [List.flatMap_eq_nil_iff]
    intro x hx
    have := hm x.1 (List.of_mem_zip (a := x.1) (b := x.2) hx).1
    obtain ⟨op, out⟩ := x
    cases op with
    | write b o => cases this
    | flush o => cases this
    | shutdown o => cases out <;> rfl
  | cons op ops ih =>
    cases outs with
    | nil => simp at h
    | cons out outs =>
      simp only [List.cons_append, accepted, List.zip_cons_cons, List.flatMap_cons]
      congr 1
      exact ih outs (by simpa using h)

theorem getLast?_append_of_ne {α : Type} {a b : List α} (h : b ≠ []) : (a ++ b).getLast? = b.getLast? := by
  cases b with
  | nil => exact absurd rfl h
  | cons x xs =>
    rw [List.getLast?_append]
    cases hx : (x :: xs).getLast? with
    | none => simp at hx
    | some y => rfl

/-- C93: the contents, after errors, too, for callers that go on after them: if the shutdown is ready the object holds as
many bytes as `tell` says, and all that was accepted, in order; without errors nothing else. -/
theorem C93_content_partial (c : Conf) (hs : Strict c.finish) (hc : 0 < c.par) (ops : List Op) (os : List (List Ans))
    (w : W) (outs : List Out) (n : Nat) (hops : ∀ op ∈ ops, op.isShutdown = false) (hos : os ≠ [])
    (hr : run c (ops ++ os.map .shutdown) (W.new c) = some (w, outs)) (hl : outs.getLast? = some (.ready n)) :
    ∃ b, w.object = some b ∧ b.length = w.cursor ∧ (accepted ops outs).Sublist b ∧
      (Out.error ∉ outs → b = accepted ops outs) := by
  obtain ⟨x, y, h1, h2, h3⟩ := run_append _ _ _ _ hr
  have hlx := run_length _ _ _ h1
  have hly := run_length _ _ _ h2
  have hy : y.2 ≠ [] := by
    intro he
    rw [he] at hly
    exact hos (by simpa using hly.symm)
  cases h3
  obtain ⟨l, k1, k2, k3⟩ := run_inv hs _ _ _ _ (Inv.new c) hr
  obtain ⟨l', m1, _⟩ := run_inv hs _ _ _ _ (Inv.new c) h1
  have hdone : y.1.state = .done := run_ready hs os x.1 _ y n m1 h2 (by rw [← getLast?_append_of_ne hy]; exact hl)
  have hemp : Emptied y.1 := run_emptied hc os x.1 y (emptied_of_open (run_open ops hops (W.new c) _ trivial h1)) h2
  unfold Emptied at hemp
  rw [hdone] at hemp
  have hacc : accepted (ops ++ os.map .shutdown) (x.2 ++ y.2) = accepted ops (x.2 ++ y.2) := by
    refine accepted_append _ _ _ (by simp [hlx]) ?_
    intro op hop
    obtain ⟨o, _, rfl⟩ := List.mem_map.mp hop
    rfl
  simp only at k1 k2 k3
  rw [hacc] at k2 k3
  obtain ⟨hcur, hi⟩ := k1
  rw [hdone] at hi
  obtain ⟨_, b, hb, hlog⟩ := hi
  simp only at hemp
  rw [hemp, List.append_nil, List.nil_append] at hlog
  subst hlog
  refine ⟨l, hb, ?_, k2, k3⟩
  rw [hcur]
  simp

/-- C93: nothing is to be seen at the path before the shutdown, whatever was written and whatever failed. -/
theorem C93_invisible_before_shutdown (c : Conf) (hs : Strict c.finish) (ops : List Op) (w : W) (outs : List Out)
    (hops : ∀ op ∈ ops, op.isShutdown = false) (hr : run c ops (W.new c) = some (w, outs)) : w.object = none := by
  obtain ⟨l, k1, _⟩ := run_inv hs _ _ _ _ (Inv.new c) hr
  exact open_object k1 (run_open ops hops (W.new c) _ trivial hr)

/-- C93: all or nothing, for any polls in any order: an object that is there is a prefix of the accepted bytes, all
of them but for what was written after it was completed. -/
theorem C93_all_or_nothing (c : Conf) (hs : Strict c.finish) (ops : List Op) (w : W) (outs : List Out)
    (hr : run c ops (W.new c) = some (w, outs)) (hne : Out.error ∉ outs) :
    w.object = none ∨ w.object = some ((accepted ops outs).take ((accepted ops outs).length - w.buffer.length)) := by
  obtain ⟨l, k1, _, k3⟩ := run_inv hs _ _ _ _ (Inv.new c) hr
  have := k3 hne
  simp only at this k1
  rw [List.nil_append, this] at k1
  obtain ⟨_, hi⟩ := k1
  cases hst : w.state with
  | done =>
    rw [hst] at hi
    obtain ⟨_, b, hb, hlog⟩ := hi
    refine Or.inr ?_
    rw [hb, hlog]
    simp
  | started => rw [hst] at hi; exact Or.inl hi.2.2.1
  | creating => rw [hst] at hi; exact Or.inl hi.2.2.1
  | inProgress n ts => rw [hst] at hi; exact Or.inl hi.1
  | putting d => rw [hst] at hi; exact Or.inl hi.1
  | completing => rw [hst] at hi; exact Or.inl hi.1
  | broken => rw [hst] at hi; exact Or.inl hi

/-- C93: `tell` is the number of bytes accepted. -/
theorem C93_tell (c : Conf) (hs : Strict c.finish) (ops : List Op) (w : W) (outs : List Out)
    (hr : run c ops (W.new c) = some (w, outs)) (hne : Out.error ∉ outs) : w.cursor = (accepted ops outs).length := by
  obtain ⟨l, k1, _, k3⟩ := run_inv hs _ _ _ _ (Inv.new c) hr
  have := k3 hne
  simp only at this k1
  rw [← this, k1.1]
  simp

theorem run_keeps {c : Conf} {P : W → Prop} (hP : ∀ op w p, P w → poll c op w = some p → P p.w) :
    ∀ (ops : List Op) (w : W) (r : W × List Out), P w → run c ops w = some r → P r.1 := by
  intro ops
  induction ops with
  | nil =>
    intro w r h hr
    cases hr
    exact h
  | cons op ops ih =>
    intro w r h hr
    unfold run at hr
    cases hp : poll c op w with
    | none => rw [hp] at hr; cases hr
    | some p =>
      rw [hp] at hr
      simp only [Option.map_eq_some_iff] at hr
      obtain ⟨x, hx, rfl⟩ := hr
      exact ih p.w x (hP op w p h hp) hx

/-- C93: never are more parts being uploaded than may be at the same time. -/
theorem C93_parts_in_flight (c : Conf) (hc : 0 < c.par) (ops : List Op) (w : W) (outs : List Out) (n : Nat) (ts : List Task)
    (hr : run c ops (W.new c) = some (w, outs)) (hst : w.state = .inProgress n ts) : ts.length ≤ c.par := by
  have : Flight c w := run_keeps (P := Flight c) (fun op w p h hp => poll_flight hc h hp) ops (W.new c) (w, outs) trivial hr
  unfold Flight at this
  rw [hst] at this
  exact this

theorem run_sized {c : Conf} : ∀ (ops : List Op), (∀ op ∈ ops, op.isShutdown = false) → ∀ (w : W) (r : W × List Out),
    Sized c w → run c ops w = some r → Sized c r.1 := by
  intro ops
  induction ops with
  | nil =>
    intro _ w r h hr
    cases hr
    exact h
  | cons op ops ih =>
    intro hops w r h hr
    unfold run at hr
    cases hp : poll c op w with
    | none => rw [hp] at hr; cases hr
    | some p =>
      rw [hp] at hr
      simp only [Option.map_eq_some_iff] at hr
      obtain ⟨x, hx, rfl⟩ := hr
      exact ih (fun op h => hops op (List.mem_cons_of_mem _ h)) p.w x
        (poll_sized (hops op List.mem_cons_self) h hp) hx

theorem run_sizedAll {c : Conf} (hi : 0 < c.init) : ∀ (os : List (List Ans)) (w : W) (r : W × List Out), SizedAll c w →
    run c (os.map .shutdown) w = some r → SizedAll c r.1 := by
  intro os
  induction os with
  | nil =>
    intro w r h hr
    cases hr
    exact h
  | cons o os ih =>
    intro w r h hr
    rw [List.map_cons] at hr
    unfold run at hr
    cases hp : poll c (.shutdown o) w with
    | none => rw [hp] at hr; cases hr
    | some p =>
      rw [hp] at hr
      simp only [Option.map_eq_some_iff] at hr
      obtain ⟨x, hx, rfl⟩ := hr
      exact ih p.w x (shutdownLoop_keeps c (SizedAll c) (step_sizedAll hi) (down_sizedAll hi) 5 o w false p h hp) hx

/-- C93: the sizes of parts (without resets, which put a part again): every part but the last has exactly its size, the
initial one throughout if the store needs parts of the same size; no part is empty or larger; and none but the last is
smaller than the initial size. -/
theorem C93_part_sizes_partial (c : Conf) (hi : 0 < c.init) (ops : List Op) (os : List (List Ans)) (w : W) (outs : List Out)
    (hops : ∀ op ∈ ops, op.isShutdown = false) (hr : run c (ops ++ os.map .shutdown) (W.new c) = some (w, outs))
    (h0 : w.resets = 0) (i : Nat) (d : List Nat) (hd : w.upload[i]? = some d) :
    0 < d.length ∧ d.length ≤ partSize c i ∧ (i + 1 < w.upload.length → d.length = partSize c i ∧ c.init ≤ d.length) ∧
      (c.constant = true → i + 1 < w.upload.length → d.length = c.init) := by
  obtain ⟨x, y, h1, h2, h3⟩ := run_append _ _ _ _ hr
  cases h3
  have hs := run_sized (c := c) ops hops (W.new c) x ⟨rfl, (partSize_zero c).symm, Nat.zero_le _⟩ h1
  have ha := run_sizedAll hi os x.1 y (sizedAll_of hi hs) h2
  have hm : AtMost c y.1.upload := by
    unfold SizedAll at ha
    split at ha
    · rw [ha.1]; exact atMost_nil c
    · rw [ha.1]; exact atMost_nil c
    · exact (ha h0).1
  obtain ⟨k1, k2, k3⟩ := hm i d hd
  refine ⟨k1, k2, fun hlt => ⟨k3 hlt, ?_⟩, fun hcon hlt => ?_⟩
  · rw [k3 hlt]
    unfold partSize
    split <;> omega
  · rw [k3 hlt]
    unfold partSize
    rw [if_pos (Or.inl hcon)]

/-- C93: polls of a flush or of a shutdown that are pending will be woken; a poll of a write, too, if the buffer has room
(then bytes are accepted) or the upload is being created. -/
theorem C93_wakes_partial (c : Conf) (hi : 0 < c.init) (w : W) (op : Op) (p : Polled) (hp : poll c op w = some p)
    (ho : p.out = .pending)
    (hop : ∀ buf o, op = .write buf o → buf ≠ [] ∧ (w.buffer.length < w.cap ∨ w.state = .creating)) : p.pend = true := by
  cases op with
  | flush o => exact flush_wakes o w p hp ho
  | shutdown o => exact shutdown_wakes o w p hp ho
  | write buf o =>
    obtain ⟨hbuf, hroom⟩ := hop buf o rfl
    simp only [poll] at hp
    unfold pollWrite at hp
    cases hr : pollTasks c o w with
    | none => rw [hr] at hp; cases hp
    | some r =>
      rw [hr] at hp
      simp only at hp
      split at hp
      · cases hp; cases ho
      · rename_i he
        have he' : r.err = false := by simpa using he
        have hkeep : (r.w.state = .creating ∨ r.w.buffer.length < r.w.cap) ∨ r.w.state = .broken := by
          refine pollTasks_keeps c (fun w => (w.state = .creating ∨ w.buffer.length < w.cap) ∨ w.state = .broken) ?_ o w r
            (Or.inl hroom.symm) hr
          intro b w w' h hw
          cases h with
          | create _ hst => exact Or.inl (Or.inr (by
              show 0 < nextCap c 0
              rw [nextCap_eq]
              exact partSize_pos hi _))
          | store _ n ts k t hst ht =>
            rcases hw with (h | h) | h
            · rw [hst] at h; cases h
            · exact Or.inl (Or.inr h)
            · rw [hst] at h; cases h
          | fail _ n ts k t hst ht =>
            rcases hw with (h | h) | h
            · rw [hst] at h; cases h
            · exact Or.inl (Or.inr h)
            · rw [hst] at h; cases h
          | retry _ n ts k t hst ht _ =>
            rcases hw with (h | h) | h
            · rw [hst] at h; cases h
            · exact Or.inl (Or.inr h)
            · rw [hst] at h; cases h
          | put _ d hst =>
            rcases hw with (h | h) | h
            · rw [hst] at h; cases h
            · exact Or.inl (Or.inr h)
            · rw [hst] at h; cases h
          | complete _ d hst =>
            rcases hw with (h | h) | h
            · rw [hst] at h; cases h
            · exact Or.inl (Or.inr h)
            · rw [hst] at h; cases h
          | «break» _ hst => exact Or.inr rfl
        have hpos : 0 < buf.length := List.length_pos_iff.mpr hbuf
        by_cases hlt : r.w.buffer.length < r.w.cap
        · split at hp
          · cases hp
          · split at hp
            · cases hp
            · split at hp
              · cases hp; cases ho
              · cases hp
                simp only at ho
                split at ho
                · rename_i h0
                  omega
                · cases ho
        · have hpend : r.pend = true := by
            refine not_idle hr he' ?_
            rintro (k | k | ⟨n, k⟩)
            · rcases hkeep with (h | h) | h
              · rw [k] at h; cases h
              · exact hlt h
              · rw [k] at h; cases h
            · rcases hkeep with (h | h) | h
              · rw [k] at h; cases h
              · exact hlt h
              · rw [k] at h; cases h
            · rcases hkeep with (h | h) | h
              · rw [k] at h; cases h
              · exact hlt h
              · rw [k] at h; cases h
          split at hp
          · cases hp
          · split at hp
            · cases hp
            · split at hp
              · cases hp; cases ho
              · cases hp
                simp [hpend]

/-- C93: if no write failed and no connection was reset, a shutdown completes with what was accepted once what is
under way succeeds. -/
theorem C93_completes_partial (c : Conf) (ha : Accepts c.finish) (hs : Strict c.finish) (hc : 0 < c.par) (ops : List Op)
    (w : W) (outs : List Out) (hops : ∀ op ∈ ops, op.isShutdown = false) (hr : run c ops (W.new c) = some (w, outs))
    (hne : Out.error ∉ outs) (h0 : w.resets = 0) :
    ∃ k, ∀ n, k ≤ n → ∃ p, pollShutdown c (List.replicate n (.ok 0)) w = some p ∧ p.out = .ready 0 ∧
      p.w.object = some (accepted ops outs) := by
  obtain ⟨l, k1, _, k3⟩ := run_inv hs _ _ _ _ (Inv.new c) hr
  have hl := k3 hne
  simp only at hl k1
  rw [List.nil_append, hl] at k1
  have hf : Full w := run_full ops hops (W.new c) _ (by trivial) hr hne
  have hop : Open w := run_open ops hops (W.new c) _ trivial hr
  have key : ∃ k, ∀ n, k ≤ n → ∃ p, pollShutdown c (List.replicate n (.ok 0)) w = some p ∧ p.out = .ready 0 := by
    unfold Open at hop
    unfold Full at hf
    obtain ⟨_, hi⟩ := k1
    cases hst : w.state with
    | started => exact ⟨3, fun n hn => shutdown_ready ha hc n w (Or.inl hst) hn⟩
    | creating =>
      rw [hst] at hf
      exact ⟨3, fun n hn => shutdown_ready ha hc n w (Or.inr (Or.inl ⟨hst, hf⟩)) hn⟩
    | inProgress m ts =>
      rw [hst] at hf hi
      refine ⟨ts.length + 3, fun n hn => shutdown_ready ha hc n w (Or.inr (Or.inr ⟨m, ts, hst, ?_, hn⟩)) (by omega)⟩
      rcases hi.2.2 with h | ⟨_, _, h⟩
      · exact absurd h (hf h0)
      · exact h
    | putting d => rw [hst] at hop; exact hop.elim
    | completing => rw [hst] at hop; exact hop.elim
    | done => rw [hst] at hop; exact hop.elim
    | broken => rw [hst] at hf; exact hf.elim
  obtain ⟨k, hk⟩ := key
  refine ⟨k, fun n hn => ?_⟩
  obtain ⟨p, hp, ho⟩ := hk n hn
  refine ⟨p, hp, ho, ?_⟩
  obtain ⟨hi, hd⟩ := shutdownLoop_inv hs 5 _ w false _ p k1 hp
  have hst := hd 0 ho
  have hemp : Emptied p.w := shutdownLoop_keeps c Emptied step_emptied (down_emptied hc) 5 _ w false p
    (emptied_of_open hop) hp
  unfold Emptied at hemp
  rw [hst] at hemp
  obtain ⟨_, hi⟩ := hi
  rw [hst] at hi
  obtain ⟨_, b, hb, hlog⟩ := hi
  simp only at hemp
  rw [hemp, List.append_nil] at hlog
  rw [hb, hlog]

/-- What is wrong with retries: once the upload of a part was tried again the object is never completed, because the part
is put as another part and the first one is missing. -/
theorem C93_retried_never_completes (c : Conf) (hs : Strict c.finish) (ops : List Op) (w : W) (outs : List Out)
    (hr : run c ops (W.new c) = some (w, outs)) (h0 : 0 < w.resets) : w.object = none ∧ w.state ≠ .done := by
  obtain ⟨l, k1, _⟩ := run_inv hs _ _ _ _ (Inv.new c) hr
  obtain ⟨_, hi⟩ := k1
  cases hst : w.state with
  | done =>
    rw [hst] at hi
    have h1 : w.resets = 0 := hi.1
    omega
  | started =>
    rw [hst] at hi
    exact ⟨hi.2.2.1, fun h => nomatch h⟩
  | creating =>
    rw [hst] at hi
    exact ⟨hi.2.2.1, fun h => nomatch h⟩
  | inProgress n ts => rw [hst] at hi; exact ⟨hi.1, fun h => nomatch h⟩
  | putting d => rw [hst] at hi; exact ⟨hi.1, fun h => nomatch h⟩
  | completing => rw [hst] at hi; exact ⟨hi.1, fun h => nomatch h⟩
  | broken => rw [hst] at hi; exact ⟨hi, fun h => nomatch h⟩

/-! ### What does not hold -/

/-- Parts of two bytes. -/
def small (par retries : Nat) : Conf := ⟨2, 2, false, par, retries, finishStrict⟩

theorem small_ok (par retries : Nat) : (small par retries).Ok := ⟨strict_finish, accepts_finish, Nat.zero_lt_two, Nat.le_refl 2⟩

/-- A first part, and another one that waits for it: only one part may be uploaded at a time. -/
def busy : List Op := [.write [1, 2] [.ok 0], .write [3, 4] []]

/-- A write whose part is put and stored within one poll, when nothing else is being uploaded: nothing will wake the
caller. -/
theorem C93_wakes_violated : ¬ C93_wakes_statement := by
  intro h
  have := h (small 1 20) (small_ok 1 20) busy
    ⟨.inProgress 1 [⟨0, [1, 2]⟩], [3, 4], 2, 4, 0, [[1, 2]], [], none⟩ [.ready 2, .ready 2]
    (.write [5] [.ok 0, .ok 0])
    ⟨⟨.inProgress 2 [], [], 2, 4, 0, [[1, 2], [3, 4]], [1, 0], none⟩, .pending, false⟩
    (by decide) (by decide) (by decide) (by intro o; simp) (by decide) (by decide)
  cases this

/-- One reset of a connection: the part is put again, but the upload cannot be completed. -/
theorem C93_retries_violated : ¬ C93_retries_statement := by
  intro h
  have := h (small 10 20) (small_ok 10 20) [.write [1, 2] [.ok 0], .write [3] [.reset 0, .ok 0]] [[.ok 0, .ok 0]]
    ⟨.broken, [], 0, 3, 1, [[1, 2], [1, 2], [3]], [2, 1], none⟩ [.ready 2, .ready 1, .error]
    (by decide) (by decide) (by decide) (by decide)
  exact this (by decide)

/-- `LANCE_UPLOAD_CONCURRENCY=0`: the shutdown leaves out what is in the buffer, and succeeds. -/
theorem C93_no_concurrency_violated : ¬ C93_content_statement := by
  intro h
  have := h (small 0 20) (small_ok 0 20) [.write [1, 2] [.ok 0], .write [3] []] [[.ok 0, .ok 0, .ok 0]]
    ⟨.done, [3], 2, 3, 0, [[1, 2]], [0], some [1, 2]⟩ [.ready 2, .ready 1, .ready 0] 0
    (by decide) (by decide) (by decide) (by decide) (by decide)
  revert this
  decide

theorem C93_violated : ¬ C93_statement := fun h => C93_wakes_violated h.2.1

/-- A store that puts together what it has would make the retry change the order of the parts. -/
theorem C93_lenient_store_reorders :
    run ⟨2, 2, false, 10, 20, finishLenient⟩
      [.write [1, 2] [.ok 0], .write [3, 4] [], .shutdown [.reset 0, .ok 0, .ok 0, .ok 0]]
      (W.new ⟨2, 2, false, 10, 20, finishLenient⟩) =
      some (⟨.done, [], 2, 4, 1, [[1, 2], [3, 4], [1, 2]], [2, 1], some [3, 4, 1, 2]⟩, [.ready 2, .ready 2, .ready 0]) := by
  decide

/-- Bytes written after the shutdown may be accepted although they go nowhere. -/
theorem C93_write_after_shutdown :
    run (small 10 20) [.write [1, 2] [.ok 0], .shutdown [.ok 0, .ok 0], .write [3] [], .shutdown []] (W.new (small 10 20)) =
      some (⟨.done, [3], 2, 3, 0, [[1, 2]], [0], some [1, 2]⟩, [.ready 2, .ready 0, .ready 1, .ready 0]) := by decide

/-- A write of no bytes never returns. -/
theorem C93_empty_write_hangs (c : Conf) (o : List Ans) :
    pollWrite { c with init := 2 } [] o (W.new { c with init := 2 }) =
      some ⟨W.new { c with init := 2 }, .pending, false⟩ := by
  cases o <;> rfl

/-! ### Not vacuous -/

/-- Three parts, uploaded two at a time and finishing out of order. -/
def threeParts : List Op := [.write [1, 2, 3] [.ok 0], .write [3] [], .write [4, 5] [], .write [5] [.ok 1]]

theorem C93_nonvacuous :
    run (small 2 20) (threeParts ++ [[.ok 0], [.ok 0, .ok 0]].map .shutdown) (W.new (small 2 20)) =
      some (⟨.done, [], 0, 5, 0, [[1, 2], [3, 4], [5]], [2, 0, 1], some [1, 2, 3, 4, 5]⟩,
        [.ready 2, .ready 1, .ready 1, .ready 1, .pending, .ready 0]) ∧
    accepted threeParts [.ready 2, .ready 1, .ready 1, .ready 1, .pending, .ready 0] = [1, 2, 3, 4, 5] := by decide

/-- A small object is put at once. -/
theorem C93_small_nonvacuous :
    run (small 2 20) ([.write [7] [], .flush []] ++ [[.pending], [.ok 0]].map .shutdown) (W.new (small 2 20)) =
      some (⟨.done, [], 0, 1, 0, [], [], some [7]⟩, [.ready 1, .ready 0, .pending, .ready 0]) := by decide

end Verif.Upload
