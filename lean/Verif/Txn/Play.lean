import Verif.Txn.IdsInv
/-!
# Playing a list of transactions

`play` commits the given transactions one after the other, each prepared from the version it says it
read.  It is used to exhibit reachable histories.
-/
namespace Verif.Txn

instance (f : Frag) : Decidable (NewFrag f) := by unfold NewFrag; infer_instance
instance (m : Manifest) (u : Frag) : Decidable (UpdatedFrag m u) := by unfold UpdatedFrag; infer_instance

def grantedB (h : Hist) (v id : Nat) : Bool :=
  match h.look v with
  | none => false
  | some e => match e.job.tx.op with
    | .reserve n => decide (e.m.maxFrag + 1 - n ≤ id ∧ id < e.m.maxFrag + 1)
    | _ => false

theorem grantedB_iff (h : Hist) (v id : Nat) : grantedB h v id = true ↔ Granted h v id := by
  unfold grantedB Granted
  constructor
  · intro hb
    split at hb
    · cases hb
    · rename_i e he
      split at hb
      · rename_i n hop
        have := of_decide_eq_true hb
        exact ⟨e, n, he, hop, this.1, this.2⟩
      · cases hb
  · rintro ⟨e, n, h1, h2, h3, h4⟩
    rw [h1]; simp only; rw [h2]; exact decide_eq_true ⟨h3, h4⟩

instance (h : Hist) (v id : Nat) : Decidable (Granted h v id) := decidable_of_iff _ (grantedB_iff h v id)

instance (h : Hist) (m : Manifest) (j : Job) : Decidable (Prepared h m j) := by
  unfold Prepared; split <;> infer_instance

instance (m : Manifest) (tx : Tx) : Decidable (NoWrap m tx) := by
  unfold NoWrap; split <;> infer_instance

/-- What a writer may commit on top of `h` at once. -/
def nextEntry (cached : Bool) (h : Hist) (j : Job) : Option Entry :=
  match h with
  | [] => none
  | p :: t =>
    match Hist.look (p :: t) j.tx.read with
    | none => none
    | some b =>
      if Prepared (p :: t) b.m j ∧ (∀ e ∈ p :: t, ∀ v ∈ j.resv, v ∉ e.job.resv) ∧ NoWrap p.m j.tx ∧
          (∀ v ∈ versionsAfter j.tx.read (p :: t).length, noConflict (p :: t) (fun _ => cached) j.tx v = true) then
        match attempt (Hist.read (p :: t) []) (p.m, p.ix) j.tx ((p :: t).length + 1) with
        | .error _ => none
        | .ok (m, ix) => some ⟨j, m, ix, []⟩
      else none

def playFrom (cached : Bool) : Hist → List Job → Option Hist
  | h, [] => some h
  | h, j :: js =>
    match nextEntry cached h j with
    | none => none
    | some e => playFrom cached (e :: h) js

def firstEntry (j : Job) : Option Entry :=
  match j.tx.op with
  | .overwrite fs _ _ =>
    if (∀ f ∈ fs, NewFrag f) ∧ j.resv = [] ∧ j.tx.read = 0 then
      match attemptNew j.tx with
      | .error _ => none
      | .ok (m, ix) => some ⟨j, m, ix, []⟩
    else none
  | _ => none

def play (cached : Bool) (j : Job) (js : List Job) : Option Hist :=
  match firstEntry j with
  | none => none
  | some e => playFrom cached [e] js

/-- Nobody in the middle of a commit uses reservations, and infinitely many writers have not started. -/
structure Quiet (s : Sys) (k : Nat) : Prop where
  idle : ∀ i, k ≤ i → s.ws i = .idle
  done : ∀ i j, (s.ws i).job = some j → j.resv = []
  gone : s.gone = []

theorem playFrom_reach {cached : Bool} {s : Sys} {k : Nat} (hr : Reach s) (hq : Quiet s k) {js : List Job} {h : Hist}
    (hp : playFrom cached s.hist js = some h) : ∃ t k', Reach t ∧ Quiet t k' ∧ t.hist = h ∧ k ≤ k' ∧ ∀ i, i < k → t.ws i = s.ws i := by
  induction js generalizing s k with
  | nil => cases hp; exact ⟨s, k, hr, hq, rfl, Nat.le_refl _, fun _ _ => rfl⟩
  | cons j js ih =>
    unfold playFrom at hp
    split at hp
    · cases hp
    · rename_i e hne
      unfold nextEntry at hne
      split at hne
      · cases hne
      · rename_i p t hst
        split at hne
        · cases hne
        · rename_i b hb
          split at hne
          · rename_i hc
            obtain ⟨c1, c2, c3, c4⟩ := hc
            split at hne
            · cases hne
            · rename_i m ix hatt
              rw [← hst] at hb c1 c2 c4 hatt
              have s1 : Step s (s.set k (.prepared j)) := Step.begin s k j b (hq.idle k (Nat.le_refl _)) hb
                (by rw [hq.gone]; simp) ⟨fun w j' hw v _ => by rw [hq.done w j' hw]; simp, c2⟩ c1
              have r1 := Reach.step hr s1
              have hws1 : (s.set k (.prepared j)).ws k = .prepared j := by simp [Sys.set]
              have s2 : Step (s.set k (.prepared j)) ((s.set k (.prepared j)).set k (.ready j s.hist.length)) :=
                Step.check _ k j (versionsAfter j.tx.read s.hist.length) (fun _ => cached) hws1 (List.Perm.refl _)
                  (fun v hv => c4 v ((List.takeWhile_sublist _).subset hv))
              have r2 := Reach.step r1 s2
              let s' := (s.set k (.prepared j)).set k (.ready j s.hist.length)
              have hws2 : s'.ws k = .ready j s.hist.length := by simp [s', Sys.set]
              have hg : s.gone = [] := hq.gone
              have s3 := Step.commit s' k j p t m ix hws2 hst c3 (by
                have : s'.hist = s.hist := rfl
                have hg' : s'.gone = [] := hg
                rw [this, hg']; exact hatt)
              have r3 := Reach.step r2 s3
              have hres : ∃ t k', Reach t ∧ Quiet t k' ∧ t.hist = h ∧ k + 1 ≤ k' ∧
                  ∀ i, i < k + 1 → t.ws i = (Sys.set { s' with hist := ⟨j, m, ix, s'.gone⟩ :: s'.hist } k
                    (W.done j (s'.hist.length + 1))).ws i := ?_
              · obtain ⟨t, k', a1, a2, a3, a4, a5⟩ := hres
                refine ⟨t, k', a1, a2, a3, by omega, fun i hi => ?_⟩
                rw [a5 i (by omega)]
                have hne : i ≠ k := by omega
                simp only [Sys.set, s', hne, if_false]
              refine ih (k := k + 1) r3 ?_ ?_
              · refine ⟨fun i hi => ?_, fun i j' hij => ?_, hg⟩
                · have hne : i ≠ k := by omega
                  simp only [Sys.set, s', hne, if_false]
                  exact hq.idle i (by omega)
                · simp only [Sys.set, s'] at hij
                  split at hij
                  · cases hij
                  · exact hq.done i j' hij
              · simp only [Option.some.injEq] at hne
                rw [← hne] at hp
                have : (Sys.set { s' with hist := ⟨j, m, ix, s'.gone⟩ :: s'.hist } k (W.done j (s'.hist.length + 1))).hist =
                    ⟨j, m, ix, s.gone⟩ :: s.hist := rfl
                rw [this, hg]; exact hp
          · cases hne

theorem play_quiet {cached : Bool} {j : Job} {js : List Job} {h : Hist} (hp : play cached j js = some h) :
    ∃ t k, Reach t ∧ t.hist = h ∧ Quiet t k := by
  unfold play at hp
  split at hp
  · cases hp
  · rename_i e hf
    unfold firstEntry at hf
    split at hf
    · rename_i fs sch up hop
      split at hf
      · rename_i hc
        split at hf
        · cases hf
        · rename_i m ix hatt
          simp only [Option.some.injEq] at hf
          have s1 := Step.create Sys.init 0 j m ix rfl rfl fs sch up hop hc.2.1 hc.2.2 hc.1 hatt
          have r1 := Reach.step Reach.init s1
          obtain ⟨t, k', h1, h2, h3, _⟩ := playFrom_reach (k := 1) r1 ⟨fun i hi => by
              have hne : i ≠ 0 := by omega
              simp [Sys.set, Sys.init, hne], fun i j' hij => (by
              simp only [Sys.set, Sys.init] at hij
              split at hij
              · cases hij
              · cases hij), rfl⟩ (by rw [← hf] at hp; exact hp)
          exact ⟨t, k', h1, h3, h2⟩
      · cases hf
    · cases hf

theorem play_reach {cached : Bool} {j : Job} {js : List Job} {h : Hist} (hp : play cached j js = some h) :
    ∃ t, Reach t ∧ t.hist = h ∧ t.gone = [] := by
  obtain ⟨t, k, h1, h2, h3⟩ := play_quiet hp
  exact ⟨t, h1, h2, h3.gone⟩

theorem playFrom_clean {cached : Bool} {h0 : Hist} (hg : h0.Clean) {js : List Job} {h : Hist}
    (hp : playFrom cached h0 js = some h) : h.Clean := by
  induction js generalizing h0 with
  | nil => cases hp; exact hg
  | cons j js ih =>
    unfold playFrom at hp
    split at hp
    · cases hp
    · rename_i e hne
      refine ih ?_ hp
      refine ⟨?_, hg⟩
      unfold nextEntry at hne
      split at hne
      · cases hne
      · split at hne
        · cases hne
        · split at hne
          · split at hne
            · cases hne
            · cases hne
              intro v _ _ hm; cases hm
          · cases hne

theorem play_clean {cached : Bool} {j : Job} {js : List Job} {h : Hist} (hp : play cached j js = some h) : h.Clean := by
  unfold play at hp
  split at hp
  · cases hp
  · rename_i e hf
    refine playFrom_clean ?_ hp
    refine ⟨?_, trivial⟩
    unfold firstEntry at hf
    split at hf
    · split at hf
      · split at hf
        · cases hf
        · cases hf
          intro v _ _ hm; cases hm
      · cases hf
    · cases hf

/-- Version `v` exists and satisfies `Q`. -/
def Hist.At (h : Hist) (v : Nat) (Q : Entry → Prop) : Prop := ∃ e, h.look v = some e ∧ Q e

instance (h : Hist) (v : Nat) (Q : Entry → Prop) [DecidablePred Q] : Decidable (h.At v Q) :=
  match hl : h.look v with
  | none => isFalse (by rintro ⟨e, h1, _⟩; rw [hl] at h1; cases h1)
  | some e =>
    if hq : Q e then isTrue ⟨e, hl, hq⟩
    else isFalse (by rintro ⟨e', h1, h2⟩; rw [hl] at h1; cases h1; exact hq h2)

/-- A property of the history that `play` computes holds in a reachable state. -/
theorem play_ex {cached : Bool} {j : Job} {js : List Job} (P : Hist → Prop) [DecidablePred P]
    (hx : (play cached j js).map (fun h => decide (P h)) = some true) :
    ∃ s k, Reach s ∧ Quiet s k ∧ s.hist.Clean ∧ P s.hist := by
  cases hp : play cached j js with
  | none => rw [hp] at hx; cases hx
  | some h =>
    rw [hp] at hx
    simp only [Option.map_some, Option.some.injEq, decide_eq_true_eq] at hx
    obtain ⟨s, k, h1, h2, h3⟩ := play_quiet hp
    exact ⟨s, k, h1, h3, by rw [h2]; exact play_clean hp, by rw [h2]; exact hx⟩

/-! Shorthands for examples. -/

def xf (path : Nat) : File := ⟨path, [0], [0], 2, 0⟩
/-- A new fragment with one file and `n` rows. -/
def xnew (path n : Nat) : Frag := ⟨0, [xf path], none, none, some n⟩
def xschema : Schema := ⟨[(0, [])], []⟩
def xtx (read uuid : Nat) (op : Op) (stable : Bool := false) (resv : List Nat := []) : Job := ⟨⟨read, uuid, op, none, stable⟩, resv⟩
def xcreate (fs : List Frag) (stable : Bool := false) : Job := xtx 0 100 (.overwrite fs xschema none) stable

def xdemo : Option Hist := play false (xcreate [xnew 1 3]) [xtx 1 101 (.append [xnew 2 4])]

example : (xdemo.map (fun h => h.map (fun e => e.m.frags.map (·.id)))) = some [[0, 1], [0]] := by decide +kernel

end Verif.Txn
