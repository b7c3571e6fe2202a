import Verif.Upload.Model

/-!
# What holds of a writer between polls
-/
namespace Verif.Upload

/-- The store does not complete an upload of which a part is missing. -/
def Strict (fin : List (List Nat) → List Nat → Option (List Nat)) : Prop :=
  ∀ up st b, fin up st = some b → (∀ i, i < up.length → i ∈ st) ∧ b = up.flatten

theorem strict_finish : Strict finishStrict := by
  intro up st b h
  unfold finishStrict at h
  split at h
  · rename_i hall
    refine ⟨fun i hi => ?_, (Option.some.inj h).symm⟩
    have := List.all_eq_true.mp hall i (List.mem_range.mpr hi)
    simpa using this
  · cases h

def calls (ts : List Task) : List Nat := ts.map Task.call

/-- Numbers of calls are those of payloads, and no call is counted twice. -/
structure Sound (w : W) (ts : List Task) : Prop where
  data : ∀ t ∈ ts, w.upload[t.call]? = some t.data
  bound : ∀ i ∈ w.stored, i < w.upload.length
  nodup : (calls ts).Nodup
  disj : ∀ i ∈ w.stored, i ∉ calls ts

/-- A call was neither stored nor is it being made. -/
def Lost (w : W) (ts : List Task) : Prop := ∃ i, i < w.upload.length ∧ i ∉ w.stored ∧ i ∉ calls ts

def Parts (w : W) (ts : List Task) (log : List Nat) : Prop :=
  Sound w ts ∧ (Lost w ts ∨ (w.resets = 0 ∧ log = w.upload.flatten ++ w.buffer ∧
    ∀ i, i < w.upload.length → i ∈ w.stored ∨ i ∈ calls ts))

/-- `log`: all bytes that were put in the buffer. -/
def Inv (w : W) (log : List Nat) : Prop :=
  w.cursor = log.length ∧
  match w.state with
  | .started => w.upload = [] ∧ w.stored = [] ∧ w.object = none ∧ w.resets = 0 ∧ log = w.buffer
  | .creating => w.upload = [] ∧ w.stored = [] ∧ w.object = none ∧ w.resets = 0 ∧ log = w.buffer
  | .inProgress _ ts => w.object = none ∧ Parts w ts log
  | .putting d => w.object = none ∧ w.resets = 0 ∧ log = d ∧ w.buffer = [] ∧ w.cap = 0
  | .completing => w.object = none ∧ Parts w [] log
  | .done => w.resets = 0 ∧ ∃ b, w.object = some b ∧ log = b ++ w.buffer
  | .broken => w.object = none

theorem Inv.new (c : Conf) : Inv (W.new c) [] := ⟨rfl, rfl, rfl, rfl, rfl, rfl⟩

theorem Sound.lt {w : W} {ts : List Task} (h : Sound w ts) {t : Task} (ht : t ∈ ts) : t.call < w.upload.length := by
  have := h.data t ht
  rw [List.getElem?_eq_some_iff] at this
  exact this.1

theorem Sound.fresh {w : W} {ts : List Task} (h : Sound w ts) : w.upload.length ∉ calls ts := by
  intro hm
  obtain ⟨t, ht, he⟩ := List.mem_map.mp hm
  have := h.lt ht
  omega

theorem getElem?_eraseIdx_mem {α : Type} {l : List α} {k : Nat} {a : α} (h : a ∈ l.eraseIdx k) : a ∈ l :=
  (List.eraseIdx_sublist l k).subset h

theorem perm_erase {α : Type} {t : α} : ∀ {l : List α} {k : Nat}, l[k]? = some t → l.Perm (t :: l.eraseIdx k)
  | [], k, h => by simp at h
  | x :: xs, 0, h => by
    simp at h
    subst h
    exact List.Perm.refl _
  | x :: xs, k + 1, h => by
    simp at h
    exact ((perm_erase h).cons x).trans (List.Perm.swap ..)

/-- Taking the `k`-th task out. -/
theorem calls_erase {ts : List Task} {k : Nat} {t : Task} (h : ts[k]? = some t) (i : Nat) :
    i ∈ calls ts ↔ i = t.call ∨ i ∈ calls (ts.eraseIdx k) := by
  unfold calls
  have hp := perm_erase h
  rw [(hp.map Task.call).mem_iff]
  simp

theorem nodup_erase {ts : List Task} {k : Nat} {t : Task} (h : ts[k]? = some t) (hn : (calls ts).Nodup) :
    t.call ∉ calls (ts.eraseIdx k) ∧ (calls (ts.eraseIdx k)).Nodup := by
  have hp := perm_erase h
  have := (hp.map Task.call).nodup_iff.mp hn
  rw [List.map_cons, List.nodup_cons] at this
  exact this

/-- A call of `put_part` whose task is `ts ++ [t]`. -/
theorem Sound.call {w : W} {ts : List Task} (h : Sound w ts) (d : List Nat) (w' : W)
    (hu : w'.upload = w.upload ++ [d]) (hst : w'.stored = w.stored) : Sound w' (ts ++ [⟨w.upload.length, d⟩]) where
  data := by
    intro t ht
    rw [hu]
    rcases List.mem_append.mp ht with h' | h'
    · have := h.data t h'
      rw [List.getElem?_append_left (h.lt h')]
      exact this
    · rw [List.mem_singleton] at h'
      subst h'
      simp
  bound := by
    intro i hi
    rw [hst] at hi
    have := h.bound i hi
    rw [hu, List.length_append]
    simp
    omega
  nodup := by
    unfold calls
    rw [List.map_append, List.nodup_append]
    refine ⟨h.nodup, by simp, ?_⟩
    intro a ha b hb
    simp at hb
    subst hb
    intro he
    subst he
    exact h.fresh ha
  disj := by
    intro i hi
    rw [hst] at hi
    unfold calls
    rw [List.map_append, List.mem_append]
    rintro (h' | h')
    · exact h.disj i hi h'
    · simp at h'
      have := h.bound i hi
      omega

theorem Lost.call {w : W} {ts : List Task} (h : Lost w ts) (hso : Sound w ts) (d : List Nat) (w' : W)
    (hu : w'.upload = w.upload ++ [d]) (hst : w'.stored = w.stored) : Lost w' (ts ++ [⟨w.upload.length, d⟩]) := by
  obtain ⟨i, h1, h2, h3⟩ := h
  refine ⟨i, by rw [hu]; simp; omega, by rw [hst]; exact h2, ?_⟩
  unfold calls
  rw [List.map_append, List.mem_append]
  rintro (h' | h')
  · exact h3 h'
  · simp at h'
    omega

/-- The buffer becomes the next part. -/
theorem Parts.send {w : W} {ts : List Task} {log : List Nat} (h : Parts w ts log) (w' : W)
    (hu : w'.upload = w.upload ++ [w.buffer]) (hst : w'.stored = w.stored) (hr : w'.resets = w.resets)
    (hb : w'.buffer = []) : Parts w' (ts ++ [⟨w.upload.length, w.buffer⟩]) log := by
  refine ⟨h.1.call _ _ hu hst, ?_⟩
  rcases h.2 with hl | ⟨h1, h2, h3⟩
  · exact Or.inl (hl.call h.1 _ _ hu hst)
  · refine Or.inr ⟨by rw [hr]; exact h1, by rw [hb, hu, h2]; simp, ?_⟩
    intro i hi
    rw [hu, List.length_append] at hi
    simp at hi
    rw [hst]
    unfold calls
    rw [List.map_append, List.mem_append]
    by_cases he : i = w.upload.length
    · exact Or.inr (Or.inr (by simp [he]))
    · rcases h3 i (by omega) with h' | h'
      · exact Or.inl h'
      · exact Or.inr (Or.inl h')

/-- A part was stored. -/
theorem Parts.store {w : W} {ts : List Task} {log : List Nat} (h : Parts w ts log) {k : Nat} {t : Task}
    (ht : ts[k]? = some t) (w' : W) (hu : w'.upload = w.upload) (hst : w'.stored = t.call :: w.stored)
    (hr : w'.resets = w.resets) (hb : w'.buffer = w.buffer) : Parts w' (ts.eraseIdx k) log := by
  have hmem : t ∈ ts := List.mem_of_getElem? ht
  obtain ⟨hn1, hn2⟩ := nodup_erase ht h.1.nodup
  refine ⟨⟨?_, ?_, hn2, ?_⟩, ?_⟩
  · intro x hx
    rw [hu]
    exact h.1.data x (getElem?_eraseIdx_mem hx)
  · intro i hi
    rw [hst] at hi
    rw [hu]
    rcases List.mem_cons.mp hi with h' | h'
    · rw [h']
      exact h.1.lt hmem
    · exact h.1.bound i h'
  · intro i hi
    rw [hst] at hi
    rcases List.mem_cons.mp hi with h' | h'
    · rw [h']
      exact hn1
    · intro hc
      exact h.1.disj i h' ((calls_erase ht i).mpr (Or.inr hc))
  · rcases h.2 with ⟨i, h1, h2, h3⟩ | ⟨h1, h2, h3⟩
    · refine Or.inl ⟨i, by rw [hu]; exact h1, ?_, fun hc => h3 ((calls_erase ht i).mpr (Or.inr hc))⟩
      rw [hst]
      intro hc
      rcases List.mem_cons.mp hc with h' | h'
      · exact h3 ((calls_erase ht i).mpr (Or.inl h'))
      · exact h2 h'
    · refine Or.inr ⟨by rw [hr]; exact h1, by rw [hu, hb]; exact h2, ?_⟩
      intro i hi
      rw [hu] at hi
      rw [hst]
      rcases h3 i hi with h' | h'
      · exact Or.inl (List.mem_cons_of_mem _ h')
      · rcases (calls_erase ht i).mp h' with h'' | h''
        · exact Or.inl (by rw [h'']; exact List.mem_cons_self)
        · exact Or.inr h''

/-- A part failed. -/
theorem Parts.fail {w : W} {ts : List Task} {log : List Nat} (h : Parts w ts log) {k : Nat} {t : Task}
    (ht : ts[k]? = some t) (w' : W) (hu : w'.upload = w.upload) (hst : w'.stored = w.stored) :
    Sound w' (ts.eraseIdx k) ∧ Lost w' (ts.eraseIdx k) := by
  have hmem : t ∈ ts := List.mem_of_getElem? ht
  obtain ⟨hn1, hn2⟩ := nodup_erase ht h.1.nodup
  refine ⟨⟨?_, ?_, hn2, ?_⟩, t.call, by rw [hu]; exact h.1.lt hmem, ?_, hn1⟩
  · intro x hx
    rw [hu]
    exact h.1.data x (getElem?_eraseIdx_mem hx)
  · intro i hi
    rw [hst] at hi
    rw [hu]
    exact h.1.bound i hi
  · intro i hi hc
    rw [hst] at hi
    exact h.1.disj i hi ((calls_erase ht i).mpr (Or.inr hc))
  · rw [hst]
    intro hc
    exact h.1.disj _ hc ((calls_erase ht _).mpr (Or.inl rfl))

/-- Whether tasks remain that will wake the caller. -/
def Idle (w : W) : Prop := w.state = .started ∨ w.state = .done ∨ ∃ n, w.state = .inProgress n []

/-- `poll_tasks` keeps what is known, and either something is pending or nothing is left to poll. -/
theorem pollTasks_inv (c : Conf) (hs : Strict c.finish) : ∀ (o : List Ans) (w : W) (log : List Nat) (r : Res),
    Inv w log → pollTasks c o w = some r → Inv r.w log := by
  intro o
  induction o with
  | nil =>
    intro w log r h hr
    unfold pollTasks at hr
    split at hr <;> first | (cases hr; exact h) | cases hr
  | cons a o ih =>
    intro w log r h hr
    unfold pollTasks at hr
    split at hr
    · cases hr; exact h
    · cases hr; exact h
    · cases hr
    · rename_i hst
      obtain ⟨hcur, h⟩ := h
      rw [hst] at h
      obtain ⟨h1, h2, h3, h4, h5⟩ := h
      split at hr
      · refine ih _ log r ?_ hr
        refine ⟨hcur, h3, ?_⟩
        have hp : Parts w [] log := by
          refine ⟨⟨(fun t ht => nomatch ht), ?_, by simp [calls], ?_⟩, Or.inr ⟨h4, by rw [h1, h5]; rfl, ?_⟩⟩
          · intro i hi
            rw [h2] at hi
            cases hi
          · intro i hi
            rw [h2] at hi
            cases hi
          · intro i hi
            rw [h1] at hi
            simp at hi
        exact hp.send _ rfl rfl rfl rfl
      · cases hr
        exact ⟨hcur, by rw [hst]; exact ⟨h1, h2, h3, h4, h5⟩⟩
      · cases hr
        exact ⟨hcur, h3⟩
    · rename_i n tasks hst
      have h0 := h
      obtain ⟨hcur, h⟩ := h
      rw [hst] at h
      obtain ⟨h3, hp⟩ := h
      split at hr
      · cases hr; exact h0
      · split at hr
        · cases hr; exact h0
        · split at hr
          · cases hr; exact h0
          · rename_i t ht
            refine ih _ log r ?_ hr
            refine ⟨hcur, h3, ?_⟩
            exact hp.store ht _ rfl rfl rfl rfl
        · split at hr
          · cases hr; exact h0
          · rename_i t ht
            cases hr
            exact ⟨hcur, h3, And.left (hp.fail ht _ rfl rfl), Or.inl (And.right (hp.fail ht _ rfl rfl))⟩
        · split at hr
          · cases hr; exact h0
          · rename_i t ht
            split at hr
            · refine ih _ log r ?_ hr
              refine ⟨hcur, h3, ?_⟩
              obtain ⟨k1, k2⟩ := hp.fail ht w rfl rfl
              exact ⟨k1.call t.data _ rfl rfl, Or.inl (k2.call k1 t.data _ rfl rfl)⟩
            · cases hr
              exact ⟨hcur, h3, And.left (hp.fail ht _ rfl rfl), Or.inl (And.right (hp.fail ht _ rfl rfl))⟩
    · rename_i d hst
      have h0 := h
      obtain ⟨hcur, h⟩ := h
      rw [hst] at h
      obtain ⟨h1, h2, h3, h4, h5⟩ := h
      split at hr
      · cases hr
        exact ⟨hcur, h2, d, rfl, by rw [h4, List.append_nil]; exact h3⟩
      · cases hr; exact h0
      · cases hr
        exact ⟨hcur, h1⟩
    · rename_i hst
      have h0 := h
      obtain ⟨hcur, h⟩ := h
      rw [hst] at h
      obtain ⟨h1, hp⟩ := h
      split at hr
      · split at hr
        · rename_i b hb
          cases hr
          obtain ⟨k1, k2⟩ := hs _ _ _ hb
          rcases hp.2 with ⟨i, l1, l2, l3⟩ | ⟨l1, l2, l3⟩
          · exact absurd (k1 i l1) l2
          · exact ⟨hcur, l1, b, rfl, by rw [k2]; exact l2⟩
        · cases hr
          exact ⟨hcur, h1⟩
      · cases hr; exact h0
      · cases hr
        exact ⟨hcur, h1⟩

/-- If nothing that was polled is pending, nothing is left to poll. -/
theorem pollTasks_idle (c : Conf) : ∀ (o : List Ans) (w : W) (r : Res), pollTasks c o w = some r → r.err = false →
    r.pend = false → Idle r.w := by
  intro o
  induction o with
  | nil =>
    intro w r hr he hp
    unfold pollTasks at hr
    split at hr
    · cases hr; exact Or.inl (by assumption)
    · cases hr; exact Or.inr (Or.inl (by assumption))
    · cases hr
    · cases hr; exact Or.inr (Or.inr ⟨_, by assumption⟩)
    · cases hr; cases hp
  | cons a o ih =>
    intro w r hr he hp
    unfold pollTasks at hr
    split at hr
    · cases hr; exact Or.inl (by assumption)
    · cases hr; exact Or.inr (Or.inl (by assumption))
    · cases hr
    · split at hr
      · exact ih _ r hr he hp
      · cases hr; cases hp
      · cases hr; cases he
    · rename_i n tasks hst
      split at hr
      · rename_i ht
        cases hr
        subst ht
        exact Or.inr (Or.inr ⟨n, hst⟩)
      · split at hr
        · cases hr; cases hp
        · split at hr
          · cases hr; cases hp
          · exact ih _ r hr he hp
        · split at hr
          · cases hr; cases hp
          · cases hr; cases he
        · split at hr
          · cases hr; cases hp
          · split at hr
            · exact ih _ r hr he hp
            · cases hr; cases he
    · split at hr
      · cases hr; exact Or.inr (Or.inl rfl)
      · cases hr; cases hp
      · cases hr; cases he
    · split at hr
      · split at hr
        · cases hr; exact Or.inr (Or.inl rfl)
        · cases hr; cases he
      · cases hr; cases hp
      · cases hr; cases he

/-! ### Polls of the writer -/

theorem startNext_inv {c : Conf} {w w' : W} {log : List Nat} (h : Inv w log) (hw : startNext c w = some w') :
    Inv w' log := by
  unfold startNext at hw
  split at hw
  · split at hw
    · rename_i hst
      cases hw
      obtain ⟨hcur, h⟩ := h
      rw [hst] at h
      exact ⟨hcur, h⟩
    · rename_i n tasks hst
      split at hw
      · split at hw
        · cases hw
          obtain ⟨hcur, h⟩ := h
          rw [hst] at h
          exact ⟨hcur, h.1, h.2.send _ rfl rfl rfl rfl⟩
        · cases hw
      · cases hw; exact h
    · cases hw; exact h
  · cases hw; exact h

/-- Bytes are put in the buffer. -/
theorem Inv.put {w : W} {log : List Nat} (h : Inv w log) (bs : List Nat) (hn : bs.length ≤ w.cap - w.buffer.length) :
    Inv { w with buffer := w.buffer ++ bs, cursor := w.cursor + bs.length } (log ++ bs) := by
  obtain ⟨hcur, h⟩ := h
  refine ⟨by simp only [List.length_append]; omega, ?_⟩
  cases hst : w.state with
  | started =>
    rw [hst] at h
    obtain ⟨h1, h2, h3, h4, h5⟩ := h
    exact ⟨h1, h2, h3, h4, by rw [h5]⟩
  | creating =>
    rw [hst] at h
    obtain ⟨h1, h2, h3, h4, h5⟩ := h
    exact ⟨h1, h2, h3, h4, by rw [h5]⟩
  | inProgress n ts =>
    rw [hst] at h
    refine ⟨h.1, ⟨h.2.1.data, h.2.1.bound, h.2.1.nodup, h.2.1.disj⟩, ?_⟩
    rcases h.2.2 with hl | ⟨h1, h2, h3⟩
    · exact Or.inl hl
    · exact Or.inr ⟨h1, by rw [h2]; simp, h3⟩
  | putting d =>
    rw [hst] at h
    obtain ⟨h1, h2, h3, h4, h5⟩ := h
    have : bs = [] := by
      rw [h5] at hn
      exact List.eq_nil_of_length_eq_zero (by omega)
    subst this
    exact ⟨h1, h2, by simpa using h3, by simpa using h4, h5⟩
  | completing =>
    rw [hst] at h
    refine ⟨h.1, ⟨h.2.1.data, h.2.1.bound, h.2.1.nodup, h.2.1.disj⟩, ?_⟩
    rcases h.2.2 with hl | ⟨h1, h2, h3⟩
    · exact Or.inl hl
    · exact Or.inr ⟨h1, by rw [h2]; simp, h3⟩
  | done =>
    rw [hst] at h
    obtain ⟨h1, b, h2, h3⟩ := h
    exact ⟨h1, b, h2, by rw [h3]; simp⟩
  | broken =>
    rw [hst] at h
    exact h

theorem pollWrite_inv {c : Conf} (hs : Strict c.finish) {buf : List Nat} {o : List Ans} {w : W} {log : List Nat}
    (h : Inv w log) {p : Polled} (hp : pollWrite c buf o w = some p) :
    ∃ k, Inv p.w (log ++ buf.take k) ∧ (∀ n, p.out = .ready n → n = k ∧ 0 < n ∧ n ≤ buf.length) ∧ (p.out = .pending → k = 0) := by
  unfold pollWrite at hp
  cases hr : pollTasks c o w with
  | none => rw [hr] at hp; cases hp
  | some r =>
    rw [hr] at hp
    have hi := pollTasks_inv c hs o w log r h hr
    simp only at hp
    split at hp
    · cases hp
      exact ⟨0, by simpa using hi, (fun n hn => nomatch hn), (fun hn => nomatch hn)⟩
    · have hlen : (buf.take (min (r.w.cap - r.w.buffer.length) buf.length)).length
          = min (r.w.cap - r.w.buffer.length) buf.length := by rw [List.length_take]; omega
      have hput := hi.put (buf.take (min (r.w.cap - r.w.buffer.length) buf.length)) (by rw [hlen]; omega)
      rw [hlen] at hput
      split at hp
      · cases hp
      · rename_i w' hw'
        have hi' := startNext_inv hput hw'
        split at hp
        · cases hp
        · rename_i r' hr'
          have hi'' := pollTasks_inv c hs _ _ _ _ hi' hr'
          split at hp
          · cases hp
            exact ⟨_, hi'', (fun n hn => nomatch hn), (fun hn => nomatch hn)⟩
          · cases hp
            refine ⟨_, hi'', ?_, ?_⟩
            · intro n hn
              simp only at hn
              split at hn
              · cases hn
              · cases hn
                refine ⟨rfl, by omega, by omega⟩
            · intro hn
              simp only at hn
              split at hn
              · assumption
              · cases hn

theorem pollFlush_inv {c : Conf} (hs : Strict c.finish) {o : List Ans} {w : W} {log : List Nat}
    (h : Inv w log) {p : Polled} (hp : pollFlush c o w = some p) : Inv p.w log := by
  unfold pollFlush at hp
  cases hr : pollTasks c o w with
  | none => rw [hr] at hp; cases hp
  | some r =>
    rw [hr] at hp
    have hi := pollTasks_inv c hs o w log r h hr
    simp only at hp
    split at hp
    · cases hp; exact hi
    · split at hp <;> (cases hp; exact hi)

theorem shutdownLoop_inv {c : Conf} (hs : Strict c.finish) : ∀ (fuel : Nat) (o : List Ans) (w : W) (b : Bool)
    (log : List Nat) (p : Polled), Inv w log → shutdownLoop c fuel o w b = some p → Inv p.w log ∧
      (∀ n, p.out = .ready n → p.w.state = .done) := by
  intro fuel
  induction fuel with
  | zero =>
    intro o w b log p h hp
    cases hp
    exact ⟨h, fun n hn => nomatch hn⟩
  | succ fuel ih =>
    intro o w b log p h hp
    unfold shutdownLoop at hp
    cases hr : pollTasks c o w with
    | none => rw [hr] at hp; cases hp
    | some r =>
      rw [hr] at hp
      have hi := pollTasks_inv c hs o w log r h hr
      simp only at hp
      split at hp
      · cases hp
        exact ⟨hi, fun n hn => nomatch hn⟩
      · split at hp
        · rename_i hst
          cases hp
          exact ⟨hi, fun _ _ => hst⟩
        · rename_i hst
          refine ih _ _ _ log p ?_ hp
          obtain ⟨hcur, hi⟩ := hi
          rw [hst] at hi
          obtain ⟨h1, h2, h3, h4, h5⟩ := hi
          exact ⟨hcur, h3, h4, h5, rfl, rfl⟩
        · rename_i n tasks hst
          obtain ⟨hcur, hi'⟩ := hi
          rw [hst] at hi'
          split at hp
          · refine ih _ _ _ log p ?_ hp
            exact ⟨hcur, hi'.1, hi'.2.send _ rfl rfl rfl rfl⟩
          · split at hp
            · rename_i ht
              refine ih _ _ _ log p ?_ hp
              refine ⟨hcur, hi'.1, ?_⟩
              rw [ht] at hi'
              refine ⟨⟨hi'.2.1.data, hi'.2.1.bound, hi'.2.1.nodup, hi'.2.1.disj⟩, hi'.2.2⟩
            · cases hp
              exact ⟨⟨hcur, by rw [hst]; exact hi'⟩, fun n hn => nomatch hn⟩
        · cases hp
          exact ⟨hi, fun n hn => nomatch hn⟩

end Verif.Upload
