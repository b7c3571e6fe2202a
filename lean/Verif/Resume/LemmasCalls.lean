import Verif.Resume.LemmasRows

/-! # Lemmas on runs with a checkpoint: how often the user's function is called, and runs that are not stopped -/
namespace Verif.Resume
open Verif Verif.Read Verif.Join

variable {α β : Type}

/-- The batches an update of the fragment reads. -/
def batchesOf (split : List α → List (List α)) (opts : Opts) (f : Frag α) : List (List (Row α)) :=
  (Read.readAll split f opts).getD []

/-- The batches of a fragment that are still to be computed. -/
def need (split : List α → List (List α)) (opts : Opts) (s : Store α β) (f : Frag α) : Nat :=
  match s.getFragment f.id with
  | some _ => 0
  | none => (List.range (batchesOf split opts f).length).countP (fun i => (s.getBatch f.id i).isNone)

theorem countP_drop_one (p q : Nat → Bool) (i : Nat) (hp : p i = true) (hq : q i = false) (h : ∀ j, j ≠ i → q j = p j) :
    ∀ n, (i < n → (List.range n).countP q + 1 = (List.range n).countP p) ∧
      (¬ i < n → (List.range n).countP q = (List.range n).countP p) := by
  intro n
  induction n with
  | zero => exact ⟨fun h => by omega, fun _ => rfl⟩
  | succ n ih =>
    simp only [List.range_succ, List.countP_append, List.countP_cons, List.countP_nil]
    by_cases hi : i = n
    · subst hi
      have := ih.2 (by omega)
      rw [hp, hq]
      refine ⟨fun _ => ?_, fun h => by omega⟩
      simp only [Bool.false_eq_true, if_false, if_true]
      omega
    · rw [h n (fun e => hi e.symm)]
      refine ⟨fun hlt => ?_, fun hlt => ?_⟩
      · have := ih.1 (by omega); omega
      · have := ih.2 (by omega); omega

section
variable {split : List α → List (List α)} {opts : Opts} {compute : List (Row α) → Except Err (List β)}

theorem need_congr {s s' : Store α β} {f : Frag α} (h1 : s'.getFragment f.id = s.getFragment f.id)
    (h2 : ∀ i, s'.getBatch f.id i = s.getBatch f.id i) : need split opts s' f = need split opts s f := by
  unfold need
  rw [h1]
  simp only [h2]

theorem need_insertBatch {s : Store α β} {f : Frag α} {idx : Nat} {v : List β} (hf : s.getFragment f.id = none)
    (hb : s.getBatch f.id idx = none) (hi : idx < (batchesOf split opts f).length) :
    need split opts (s.insertBatch f.id idx v) f + 1 = need split opts s f := by
  have hf' : (s.insertBatch f.id idx v).getFragment f.id = none := hf
  unfold need
  rw [hf, hf']
  refine (countP_drop_one _ _ idx ?_ ?_ ?_ _).1 hi
  · simp only [hb]; rfl
  · simp only [getBatch_insert_eq hb]; rfl
  · intro j hj
    rw [getBatch_insert_ne (by intro e; cases e; exact hj rfl)]

/-- Whether a run got to its end. -/
def Out.ended {γ : Type} : Out γ → Nat
  | .done _ => 0
  | _ => 1

theorem cachedLoop_calls (f : Frag α) : ∀ (bs : List (List (Row α))) (idx : Nat) (w : World α β) (r : Restorer),
    (batchesOf split opts f).drop idx = bs → w.store.getFragment f.id = none →
    (cachedLoop compute f.id w idx r bs).1.calls + need split opts (cachedLoop compute f.id w idx r bs).1.store f ≤
      w.calls + need split opts w.store f + (cachedLoop compute f.id w idx r bs).2.ended ∧
    (∀ fid i, fid ≠ f.id → (cachedLoop compute f.id w idx r bs).1.store.getBatch fid i = w.store.getBatch fid i) ∧
    (∀ fid, (cachedLoop compute f.id w idx r bs).1.store.getFragment fid = w.store.getFragment fid) := by
  intro bs
  induction bs with
  | nil =>
    intro idx w r _ _
    refine ⟨?_, fun _ _ _ => rfl, fun _ => rfl⟩
    unfold cachedLoop
    simp only
    omega
  | cons b bs ih =>
    intro idx w r hd hnf
    have hlt : idx < (batchesOf split opts f).length := by
      have := congrArg List.length hd
      simp at this
      omega
    have hd' : (batchesOf split opts f).drop (idx + 1) = bs := by
      have := congrArg List.tail hd
      simpa [List.tail_drop] using this
    have cont : ∀ (w' : World α β) (v : List β),
        (∀ fid i, fid ≠ f.id → w'.store.getBatch fid i = w.store.getBatch fid i) →
        (∀ fid, w'.store.getFragment fid = w.store.getFragment fid) →
        w'.calls + need split opts w'.store f ≤ w.calls + need split opts w.store f →
        ∀ x, x = (if b.length ≠ v.length then (w', Out.err .sizeDiffers)
          else
            match restore r v with
            | .error e => (w', .err e)
            | .ok (out, r') =>
              match cachedLoop compute f.id w' (idx + 1) r' bs with
              | (w'', .done rest) => (w'', .done (out ++ rest))
              | x => x) →
        x.1.calls + need split opts x.1.store f ≤ w.calls + need split opts w.store f + x.2.ended ∧
        (∀ fid i, fid ≠ f.id → x.1.store.getBatch fid i = w.store.getBatch fid i) ∧
        (∀ fid, x.1.store.getFragment fid = w.store.getFragment fid) := by
      intro w' v k1 k2 k3 x hx
      subst hx
      by_cases hl : b.length ≠ v.length
      · rw [if_pos hl]
        exact ⟨by simp only; omega, k1, k2⟩
      · rw [if_neg hl]
        cases hrs : restore r v with
        | error e => exact ⟨by simp only; omega, k1, k2⟩
        | ok y =>
          obtain ⟨o, r'⟩ := y
          have h5 := ih (idx + 1) w' r' hd' (by rw [k2]; exact hnf)
          simp only
          cases hc : cachedLoop compute f.id w' (idx + 1) r' bs with
          | mk w'' o2 =>
            rw [hc] at h5
            obtain ⟨m1, m2, m3⟩ := h5
            have q1 : ∀ fid i, fid ≠ f.id → w''.store.getBatch fid i = w.store.getBatch fid i :=
              fun fid i hne => (m2 fid i hne).trans (k1 fid i hne)
            have q2 : ∀ fid, w''.store.getFragment fid = w.store.getFragment fid := fun fid => (m3 fid).trans (k2 fid)
            simp only at m1
            cases o2 with
            | err e => exact ⟨by simp only; omega, q1, q2⟩
            | crashed => exact ⟨by simp only; omega, q1, q2⟩
            | done rest =>
              refine ⟨?_, q1, q2⟩
              simp only [Out.ended] at m1 ⊢
              omega
    unfold cachedLoop
    cases hgb : w.store.getBatch f.id idx with
    | some v => exact cont w v (fun _ _ _ => rfl) (fun _ => rfl) (Nat.le_refl _) _ rfl
    | none =>
      simp only
      cases hcm : compute b with
      | error e => refine ⟨?_, fun _ _ _ => rfl, fun _ => rfl⟩; simp only [Out.ended]; omega
      | ok v =>
        cases hbu : w.budget with
        | zero => refine ⟨?_, fun _ _ _ => rfl, fun _ => rfl⟩; simp only [Out.ended]; omega
        | succ n =>
          apply cont ⟨w.store.insertBatch f.id idx v, n, w.calls + 1⟩ v
          · intro fid i hne
            exact getBatch_insert_ne (by intro e; cases e; exact hne rfl)
          · intro fid; rfl
          · have := need_insertBatch (split := split) (opts := opts) (v := v) hnf hgb hlt
            simp only
            omega
          · rfl

theorem cachedFragment_calls (legacy : Option Nat) (f : Frag α) (w : World α β) :
    (cachedFragment split legacy opts compute w f).1.calls + need split opts (cachedFragment split legacy opts compute w f).1.store f ≤
      w.calls + need split opts w.store f + (cachedFragment split legacy opts compute w f).2.ended ∧
    (∀ f' : Frag α, f'.id ≠ f.id →
      need split opts (cachedFragment split legacy opts compute w f).1.store f' = need split opts w.store f') := by
  unfold cachedFragment
  cases hgf : w.store.getFragment f.id with
  | some d => exact ⟨by simp only; omega, fun _ _ => rfl⟩
  | none =>
    simp only
    cases hr : Read.readAll split f opts with
    | none => exact ⟨by simp only; omega, fun _ _ => rfl⟩
    | some bs =>
      have hbs : batchesOf split opts f = bs := by unfold batchesOf; rw [hr]; rfl
      have hl := cachedLoop_calls (compute := compute) (split := split) (opts := opts) f bs 0 w (Restorer.new (deletedOf f.dv) legacy)
        (by rw [hbs]; rfl) hgf
      simp only
      cases hc : cachedLoop compute f.id w 0 (Restorer.new (deletedOf f.dv) legacy) bs with
      | mk w' o =>
        rw [hc] at hl
        obtain ⟨m1, m2, m3⟩ := hl
        simp only at m1 m2 m3
        have keep : ∀ f' : Frag α, f'.id ≠ f.id → need split opts w'.store f' = need split opts w.store f' :=
          fun f' hne => need_congr (m3 _) (fun i => m2 _ i hne)
        cases o with
        | err e => exact ⟨m1, keep⟩
        | crashed => exact ⟨m1, keep⟩
        | done col =>
          simp only
          cases hb : w'.budget with
          | zero => refine ⟨?_, keep⟩; simp only [Out.ended] at m1 ⊢; omega
          | succ n =>
            refine ⟨?_, ?_⟩
            · have e : need split opts (w'.store.insertFragment f.id ⟨f, col⟩) f = 0 := by
                unfold need
                rw [getFragment_insert_eq (by rw [m3]; exact hgf)]
              simp only [Out.ended] at m1 ⊢
              rw [e]
              omega
            · intro f' hne
              rw [← keep f' hne]
              exact need_congr (getFragment_insert_ne (Ne.symm hne)) (fun i => getBatch_insertFragment_ne (Ne.symm hne))

theorem sum_change (n n' : Frag α → Nat) (f : Frag α) (h : ∀ f' : Frag α, f'.id ≠ f.id → n' f' = n f') :
    ∀ (all : List (Frag α)), (all.map (·.id)).Nodup → f ∈ all →
    (all.map n').sum + n f = (all.map n).sum + n' f := by
  have out : ∀ (all : List (Frag α)), f.id ∉ all.map (·.id) → (all.map n').sum = (all.map n).sum := by
    intro all hni
    congr 1
    apply List.map_congr_left
    intro x hx
    exact h x (fun e => hni (by rw [← e]; exact List.mem_map_of_mem hx))
  intro all
  induction all with
  | nil => intro _ h; cases h
  | cons x all ih =>
    intro hnd hm
    rw [List.map_cons, List.nodup_cons] at hnd
    simp only [List.map_cons, List.sum_cons]
    rcases List.mem_cons.1 hm with hm | hm
    · subst hm
      have := out all hnd.1
      omega
    · have h1 := ih hnd.2 hm
      have h2 := h x (fun e => hnd.1 (by rw [e]; exact List.mem_map_of_mem hm))
      omega

theorem cachedRun_calls (legacy : Frag α → Option Nat) (all : List (Frag α)) (hall : (all.map (·.id)).Nodup) :
    ∀ (fs : List (Frag α)) (w : World α β), (∀ f ∈ fs, f ∈ all) →
    (cachedRun split legacy opts compute w fs).1.calls + (all.map (need split opts (cachedRun split legacy opts compute w fs).1.store)).sum ≤
      w.calls + (all.map (need split opts w.store)).sum + (cachedRun split legacy opts compute w fs).2.ended := by
  intro fs
  induction fs with
  | nil => intro w _; unfold cachedRun; simp only; omega
  | cons f fs ih =>
    intro w hm
    obtain ⟨h1, h2⟩ := cachedFragment_calls (split := split) (opts := opts) (compute := compute) (legacy f) f w
    have h3 := sum_change _ _ f h2 all hall (hm f List.mem_cons_self)
    unfold cachedRun
    cases hc : cachedFragment split (legacy f) opts compute w f with
    | mk w' o =>
      rw [hc] at h1 h3
      simp only at h1 h3
      cases o with
      | err e => simp only [Out.ended] at h1 ⊢; omega
      | crashed => simp only [Out.ended] at h1 ⊢; omega
      | done d =>
        have h4 := ih w' (fun x hx => hm x (List.mem_cons_of_mem _ hx))
        simp only
        cases hc2 : cachedRun split legacy opts compute w' fs with
        | mk w'' o2 =>
          rw [hc2] at h4
          cases o2 <;> simp only [Out.ended] at h1 h4 ⊢ <;> omega

theorem attempts_calls (legacy : Frag α → Option Nat) (all : List (Frag α)) (hall : (all.map (·.id)).Nodup) :
    ∀ (as : List (Attempt α)) (s : Store α β) (calls : Nat), (∀ a ∈ as, a.split = split ∧ ∀ f ∈ a.frags, f ∈ all) →
    (attempts legacy opts compute s calls as).2 + (all.map (need split opts (attempts legacy opts compute s calls as).1)).sum ≤
      calls + (all.map (need split opts s)).sum + as.length := by
  intro as
  induction as with
  | nil => intro s calls _; simp [attempts]
  | cons a as ih =>
    intro s calls ha
    obtain ⟨h1, h2⟩ := ha a List.mem_cons_self
    unfold attempts
    have h3 := ih (cachedRun a.split legacy opts compute ⟨s, a.budget, calls⟩ a.frags).1.store
      (cachedRun a.split legacy opts compute ⟨s, a.budget, calls⟩ a.frags).1.calls (fun b hb => ha b (List.mem_cons_of_mem _ hb))
    have h4 := cachedRun_calls (compute := compute) (opts := opts) (split := split) legacy all hall a.frags ⟨s, a.budget, calls⟩ h2
    rw [← h1] at h4
    have h5 : (cachedRun a.split legacy opts compute ⟨s, a.budget, calls⟩ a.frags).2.ended ≤ 1 := by
      cases (cachedRun a.split legacy opts compute ⟨s, a.budget, calls⟩ a.frags).2 <;> simp [Out.ended]
    simp only [List.length_cons]
    rw [← h1] at h3 ⊢
    simp only at h4 h3 ⊢
    omega

theorem need_empty (f : Frag α) : need split opts (Store.empty : Store α β) f = (batchesOf split opts f).length := by
  unfold need
  rw [show (Store.empty : Store α β).getFragment f.id = none from rfl]
  have : ∀ n, (List.range n).countP (fun i => ((Store.empty : Store α β).getBatch f.id i).isNone) = n := by
    intro n
    have h := List.countP_eq_length (p := fun i => ((Store.empty : Store α β).getBatch f.id i).isNone) (l := List.range n)
    rw [h.2 (fun a _ => rfl), List.length_range]
  exact this _

/-! ## Runs that are not stopped -/

theorem cachedLoop_live (fid : Nat) : ∀ (bs : List (List (Row α))) (idx : Nat) (w : World α β) (r : Restorer) (k : Nat),
    bs.length + k ≤ w.budget →
    (cachedLoop compute fid w idx r bs).2 ≠ .crashed ∧ k ≤ (cachedLoop compute fid w idx r bs).1.budget := by
  intro bs
  induction bs with
  | nil =>
    intro idx w r k h
    unfold cachedLoop
    refine ⟨?_, by simpa using h⟩
    by_cases he : r.exhausted = true
    · simp [he]
    · simp [he]
  | cons b bs ih =>
    intro idx w r k h
    rw [List.length_cons] at h
    have cont : ∀ (w' : World α β) (v : List β), bs.length + k ≤ w'.budget →
        ∀ x, x = (if b.length ≠ v.length then (w', Out.err .sizeDiffers)
          else
            match restore r v with
            | .error e => (w', .err e)
            | .ok (out, r') =>
              match cachedLoop compute fid w' (idx + 1) r' bs with
              | (w'', .done rest) => (w'', .done (out ++ rest))
              | x => x) → x.2 ≠ .crashed ∧ k ≤ x.1.budget := by
      intro w' v hb x hx
      subst hx
      by_cases hl : b.length ≠ v.length
      · rw [if_pos hl]
        exact ⟨(fun e => nomatch e), by simp only; omega⟩
      · rw [if_neg hl]
        cases hrs : restore r v with
        | error e => exact ⟨(fun e => nomatch e), by simp only; omega⟩
        | ok y =>
          obtain ⟨o, r'⟩ := y
          have h5 := ih (idx + 1) w' r' k hb
          simp only
          cases hc : cachedLoop compute fid w' (idx + 1) r' bs with
          | mk w'' o2 =>
            rw [hc] at h5
            cases o2 with
            | err e => exact h5
            | crashed => exact h5
            | done rest => exact ⟨(fun e => nomatch e), h5.2⟩
    unfold cachedLoop
    cases hgb : w.store.getBatch fid idx with
    | some v => exact cont w v (by omega) _ rfl
    | none =>
      simp only
      cases hcm : compute b with
      | error e => exact ⟨(fun e => nomatch e), by simp only; omega⟩
      | ok v =>
        cases hbu : w.budget with
        | zero => omega
        | succ n => exact cont ⟨w.store.insertBatch fid idx v, n, w.calls + 1⟩ v (by simp only; omega) _ rfl

/-- The transactions a run of the fragments commits at most. -/
def work (split : List α → List (List α)) (opts : Opts) (fs : List (Frag α)) : Nat :=
  (fs.map (fun f => (batchesOf split opts f).length + 1)).sum

theorem cachedFragment_live (legacy : Option Nat) (f : Frag α) (w : World α β) (k : Nat)
    (h : (batchesOf split opts f).length + 1 + k ≤ w.budget) :
    (cachedFragment split legacy opts compute w f).2 ≠ .crashed ∧ k ≤ (cachedFragment split legacy opts compute w f).1.budget := by
  unfold cachedFragment
  cases hgf : w.store.getFragment f.id with
  | some d => exact ⟨(fun e => nomatch e), by simp only; omega⟩
  | none =>
    simp only
    cases hr : Read.readAll split f opts with
    | none => exact ⟨(fun e => nomatch e), by simp only; omega⟩
    | some bs =>
      have hbs : batchesOf split opts f = bs := by unfold batchesOf; rw [hr]; rfl
      rw [hbs] at h
      have hl := cachedLoop_live (compute := compute) f.id bs 0 w (Restorer.new (deletedOf f.dv) legacy) (1 + k) (by omega)
      simp only
      cases hc : cachedLoop compute f.id w 0 (Restorer.new (deletedOf f.dv) legacy) bs with
      | mk w' o =>
        rw [hc] at hl
        simp only at hl
        cases o with
        | err e => exact ⟨(fun e => nomatch e), by simp only; omega⟩
        | crashed => exact absurd rfl hl.1
        | done col =>
          simp only
          cases hb : w'.budget with
          | zero => omega
          | succ n => exact ⟨(fun e => nomatch e), by simp only; omega⟩

theorem cachedRun_live (legacy : Frag α → Option Nat) : ∀ (fs : List (Frag α)) (w : World α β),
    work split opts fs ≤ w.budget → (cachedRun split legacy opts compute w fs).2 ≠ .crashed := by
  intro fs
  induction fs with
  | nil => intro w _; exact fun e => nomatch e
  | cons f fs ih =>
    intro w h
    have hw : work split opts (f :: fs) = (batchesOf split opts f).length + 1 + work split opts fs := by
      simp [work]
    have h1 := cachedFragment_live (compute := compute) (opts := opts) (split := split) (legacy f) f w (work split opts fs) (by omega)
    unfold cachedRun
    cases hc : cachedFragment split (legacy f) opts compute w f with
    | mk w' o =>
      rw [hc] at h1
      simp only at h1
      cases o with
      | err e => exact fun e => nomatch e
      | crashed => exact absurd rfl h1.1
      | done d =>
        have h2 := ih w' h1.2
        simp only
        cases hc2 : cachedRun split legacy opts compute w' fs with
        | mk w'' o2 =>
          rw [hc2] at h2
          cases o2 with
          | err e => exact h2
          | crashed => exact h2
          | done ds => exact fun e => nomatch e

end

end Verif.Resume
