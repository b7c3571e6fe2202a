import Verif.Resume.Model
import Verif.Join.PropsUpdater

/-! # Lemmas on runs with a checkpoint -/
namespace Verif.Resume
open Verif Verif.Read Verif.Join

variable {α β : Type}

theorem getBatch_mem {s : Store α β} {fid idx : Nat} {v : List β} (h : s.getBatch fid idx = some v) :
    ((fid, idx), v) ∈ s.batches := by
  unfold Store.getBatch at h
  cases e : s.batches.find? (fun x => x.1 == (fid, idx)) with
  | none => rw [e] at h; cases h
  | some x =>
    rw [e] at h
    cases h
    have h1 := List.find?_some e
    have h2 := List.mem_of_find?_eq_some e
    have : x.1 = (fid, idx) := by simpa using h1
    rw [← this]
    exact h2

theorem getFragment_mem {s : Store α β} {fid : Nat} {d : Done α β} (h : s.getFragment fid = some d) :
    (fid, d) ∈ s.frags := by
  unfold Store.getFragment at h
  cases e : s.frags.find? (fun x => x.1 == fid) with
  | none => rw [e] at h; cases h
  | some x =>
    rw [e] at h
    cases h
    have h1 := List.find?_some e
    have h2 := List.mem_of_find?_eq_some e
    have : x.1 = fid := by simpa using h1
    rw [← this]
    exact h2

/-! ## The same batches every time -/

section Same
variable (split : List α → List (List α)) (legacy : Frag α → Option Nat) (opts : Opts)
  (compute : List (Row α) → Except Err (List β)) (P : Frag α → Prop)

/-- Everything in the store is what a run without checkpoint computes. -/
structure Good (s : Store α β) : Prop where
  batch : ∀ fid idx v, ((fid, idx), v) ∈ s.batches → ∀ f, P f → f.id = fid → ∀ bs, Read.readAll split f opts = some bs →
    ∃ b, bs[idx]? = some b ∧ compute b = .ok v
  frag : ∀ fid d, (fid, d) ∈ s.frags → ∀ f, P f → f.id = fid → ∃ col, d = ⟨f, col⟩ ∧
    runUpdater split (legacy f) opts f compute = .ok col

theorem good_empty : Good split legacy opts compute P (Store.empty : Store α β) :=
  ⟨(fun _ _ _ h => nomatch h), (fun _ _ h => nomatch h)⟩

variable {split legacy opts compute P}

theorem Good.addBatch {s : Store α β} (h : Good split legacy opts compute P s) {f : Frag α} (hf : P f)
    (hid : ∀ g, P g → g.id = f.id → g = f) {bs : List (List (Row α))} (hr : Read.readAll split f opts = some bs) {idx : Nat}
    {b : List (Row α)} (hb : bs[idx]? = some b) {v : List β} (hv : compute b = .ok v) :
    Good split legacy opts compute P (s.insertBatch f.id idx v) := by
  refine ⟨?_, h.frag⟩
  intro fid i w hm g hg hgid bs' hr'
  simp only [Store.insertBatch, List.mem_append, List.mem_cons, List.not_mem_nil, or_false] at hm
  rcases hm with hm | hm
  · exact h.batch fid i w hm g hg hgid bs' hr'
  · cases hm
    have := hid g hg hgid
    subst this
    rw [hr] at hr'
    cases hr'
    exact ⟨b, hb, hv⟩

theorem Good.addFragment {s : Store α β} (h : Good split legacy opts compute P s) {f : Frag α}
    (hid : ∀ g, P g → g.id = f.id → g = f) {col : List β} (hc : runUpdater split (legacy f) opts f compute = .ok col) :
    Good split legacy opts compute P (s.insertFragment f.id ⟨f, col⟩) := by
  refine ⟨?_, ?_⟩
  · intro fid i w hm
    exact h.batch fid i w (List.mem_filter.1 hm).1
  · intro fid d hm g hg hgid
    simp only [Store.insertFragment, List.mem_append, List.mem_cons, List.not_mem_nil, or_false] at hm
    rcases hm with hm | hm
    · exact h.frag fid d hm g hg hgid
    · cases hm
      have := hid g hg hgid
      subst this
      exact ⟨col, rfl, hc⟩

/-- A run ends with a crash or as the run without checkpoint does. -/
def Matches {γ : Type} (o : Out γ) (x : Except Err γ) : Prop :=
  o = .crashed ∨ (∃ y, o = .done y ∧ x = .ok y) ∨ (∃ e, o = .err e ∧ x = .error e)

theorem cachedLoop_good {f : Frag α} (hf : P f) (hid : ∀ g, P g → g.id = f.id → g = f) {all : List (List (Row α))}
    (hr : Read.readAll split f opts = some all) : ∀ (bs : List (List (Row α))) (idx : Nat) (w : World α β) (r : Restorer),
    all.drop idx = bs → Good split legacy opts compute P w.store →
    Good split legacy opts compute P (cachedLoop compute f.id w idx r bs).1.store ∧
    Matches (cachedLoop compute f.id w idx r bs).2 (updateLoop compute r bs) := by
  intro bs
  induction bs with
  | nil =>
    intro idx w r _ h
    refine ⟨h, ?_⟩
    simp only [cachedLoop, updateLoop]
    by_cases he : r.exhausted = true
    · rw [if_pos he, if_pos he]; exact .inr (.inl ⟨[], rfl, rfl⟩)
    · rw [if_neg he, if_neg he]; exact .inr (.inr ⟨_, rfl, rfl⟩)
  | cons b bs ih =>
    intro idx w r hd h
    have hb : all[idx]? = some b := by
      have := congrArg (fun l => l[0]?) hd
      simpa using this
    have hd' : all.drop (idx + 1) = bs := by
      have := congrArg List.tail hd
      simpa [List.tail_drop] using this
    -- after the value is there
    have cont : ∀ (w' : World α β) (v : List β), Good split legacy opts compute P w'.store → compute b = .ok v →
        Good split legacy opts compute P (if b.length ≠ v.length then (w', Out.err .sizeDiffers)
          else
            match restore r v with
            | .error e => (w', .err e)
            | .ok (out, r') =>
              match cachedLoop compute f.id w' (idx + 1) r' bs with
              | (w'', .done rest) => (w'', .done (out ++ rest))
              | x => x).1.store ∧
        Matches (if b.length ≠ v.length then (w', Out.err .sizeDiffers)
          else
            match restore r v with
            | .error e => (w', .err e)
            | .ok (out, r') =>
              match cachedLoop compute f.id w' (idx + 1) r' bs with
              | (w'', .done rest) => (w'', .done (out ++ rest))
              | x => x).2 (updateLoop compute r (b :: bs)) := by
      intro w' v hw hv
      simp only [updateLoop, hv]
      by_cases hl : b.length ≠ v.length
      · rw [if_pos hl, if_pos hl]
        exact ⟨hw, .inr (.inr ⟨_, rfl, rfl⟩)⟩
      · rw [if_neg hl, if_neg hl]
        cases hrs : restore r v with
        | error e => exact ⟨hw, .inr (.inr ⟨_, rfl, rfl⟩)⟩
        | ok x =>
          obtain ⟨out, r'⟩ := x
          simp only
          obtain ⟨h1, h2⟩ := ih (idx + 1) w' r' hd' hw
          cases hc : cachedLoop compute f.id w' (idx + 1) r' bs with
          | mk w'' o =>
            rw [hc] at h1 h2
            simp only at h1 h2 ⊢
            rcases h2 with h2 | ⟨y, h2, h3⟩ | ⟨e, h2, h3⟩
            · subst h2; exact ⟨h1, .inl rfl⟩
            · subst h2; rw [h3]; exact ⟨h1, .inr (.inl ⟨_, rfl, rfl⟩)⟩
            · subst h2; rw [h3]; exact ⟨h1, .inr (.inr ⟨_, rfl, rfl⟩)⟩
    rw [cachedLoop]
    cases hg : w.store.getBatch f.id idx with
    | some v =>
      obtain ⟨b', hb', hv⟩ := h.batch f.id idx v (getBatch_mem hg) f hf rfl all hr
      rw [hb] at hb'
      cases hb'
      exact cont w v h hv
    | none =>
      cases hcm : compute b with
      | error e =>
        refine ⟨h, ?_⟩
        simp only [updateLoop, hcm]
        exact .inr (.inr ⟨_, rfl, rfl⟩)
      | ok v =>
        cases hbu : w.budget with
        | zero => exact ⟨h, .inl rfl⟩
        | succ n => exact cont ⟨w.store.insertBatch f.id idx v, n, w.calls + 1⟩ v (h.addBatch hf hid hr hb hcm) hcm

theorem cachedFragment_good {f : Frag α} (hf : P f) (hid : ∀ g, P g → g.id = f.id → g = f) (w : World α β)
    (h : Good split legacy opts compute P w.store) :
    Good split legacy opts compute P (cachedFragment split (legacy f) opts compute w f).1.store ∧
    Matches (cachedFragment split (legacy f) opts compute w f).2
      (match runUpdater split (legacy f) opts f compute with | .error e => .error e | .ok col => .ok ⟨f, col⟩) := by
  unfold cachedFragment
  cases hg : w.store.getFragment f.id with
  | some d =>
    obtain ⟨col, h1, h2⟩ := h.frag f.id d (getFragment_mem hg) f hf rfl
    subst h1
    rw [h2]
    exact ⟨h, .inr (.inl ⟨_, rfl, rfl⟩)⟩
  | none =>
    simp only
    cases hr : Read.readAll split f opts with
    | none =>
      have e : runUpdater split (legacy f) opts f compute = .error .read := by unfold runUpdater; rw [hr]
      rw [e]
      exact ⟨h, .inr (.inr ⟨_, rfl, rfl⟩)⟩
    | some all =>
      have e : runUpdater split (legacy f) opts f compute =
          updateLoop compute (Restorer.new (deletedOf f.dv) (legacy f)) all := by unfold runUpdater; rw [hr]
      obtain ⟨h1, h2⟩ := cachedLoop_good (legacy := legacy) hf hid hr all 0 w (Restorer.new (deletedOf f.dv) (legacy f)) (by simp) h
      rw [← e] at h2
      simp only
      cases hc : cachedLoop compute f.id w 0 (Restorer.new (deletedOf f.dv) (legacy f)) all with
      | mk w' o =>
        rw [hc] at h1 h2
        simp only at h1 h2
        rcases h2 with h2 | ⟨y, h2, h3⟩ | ⟨e, h2, h3⟩
        · subst h2; exact ⟨h1, .inl rfl⟩
        · subst h2
          rw [h3]
          simp only
          cases hb : w'.budget with
          | zero => exact ⟨h1, .inl rfl⟩
          | succ n => exact ⟨h1.addFragment hid h3, .inr (.inl ⟨_, rfl, rfl⟩)⟩
        · subst h2; rw [h3]; exact ⟨h1, .inr (.inr ⟨_, rfl, rfl⟩)⟩

theorem cachedRun_good (hid : ∀ f g, P f → P g → g.id = f.id → g = f) : ∀ (fs : List (Frag α)) (w : World α β),
    (∀ f ∈ fs, P f) → Good split legacy opts compute P w.store →
    Good split legacy opts compute P (cachedRun split legacy opts compute w fs).1.store ∧
    Matches (cachedRun split legacy opts compute w fs).2 (plainRun split legacy opts compute fs) := by
  intro fs
  induction fs with
  | nil => intro w _ h; exact ⟨h, .inr (.inl ⟨[], rfl, rfl⟩)⟩
  | cons f fs ih =>
    intro w hP h
    have hf := hP f List.mem_cons_self
    obtain ⟨h1, h2⟩ := cachedFragment_good (split := split) (opts := opts) (compute := compute) hf (fun g hg e => hid f g hf hg e) w h
    unfold cachedRun plainRun
    cases hc : cachedFragment split (legacy f) opts compute w f with
    | mk w' o =>
      rw [hc] at h1 h2
      simp only at h1 h2
      cases hu : runUpdater split (legacy f) opts f compute with
      | error e =>
        rw [hu] at h2
        rcases h2 with h2 | ⟨y, h2, h3⟩ | ⟨e, h2, h3⟩
        · subst h2; exact ⟨h1, .inl rfl⟩
        · cases h3
        · cases h3; subst h2; exact ⟨h1, .inr (.inr ⟨_, rfl, rfl⟩)⟩
      | ok col =>
        rw [hu] at h2
        rcases h2 with h2 | ⟨y, h2, h3⟩ | ⟨e, h2, h3⟩
        · subst h2; exact ⟨h1, .inl rfl⟩
        · cases h3
          subst h2
          obtain ⟨h4, h5⟩ := ih w' (fun g hg => hP g (List.mem_cons_of_mem _ hg)) h1
          simp only
          cases hc2 : cachedRun split legacy opts compute w' fs with
          | mk w'' o2 =>
            rw [hc2] at h4 h5
            simp only at h4 h5 ⊢
            rcases h5 with h5 | ⟨y, h5, h6⟩ | ⟨e, h5, h6⟩
            · subst h5; exact ⟨h4, .inl rfl⟩
            · subst h5; rw [h6]; exact ⟨h4, .inr (.inl ⟨_, rfl, rfl⟩)⟩
            · subst h5; rw [h6]; exact ⟨h4, .inr (.inr ⟨_, rfl, rfl⟩)⟩
        · cases h3

theorem attempts_good (hid : ∀ f g, P f → P g → g.id = f.id → g = f) : ∀ (as : List (Attempt α)) (s : Store α β) (calls : Nat),
    (∀ a ∈ as, a.split = split ∧ ∀ f ∈ a.frags, P f) → Good split legacy opts compute P s →
    Good split legacy opts compute P (attempts legacy opts compute s calls as).1 := by
  intro as
  induction as with
  | nil => intro s _ _ h; exact h
  | cons a as ih =>
    intro s calls ha h
    obtain ⟨h1, h2⟩ := ha a List.mem_cons_self
    unfold attempts
    apply ih _ _ (fun b hb => ha b (List.mem_cons_of_mem _ hb))
    rw [h1]
    exact (cachedRun_good hid a.frags ⟨s, a.budget, calls⟩ h2 h).1

end Same

end Verif.Resume
