import Verif.Resume.Lemmas

/-! # Lemmas on runs with a checkpoint: other batch sizes -/
namespace Verif.Resume
open Verif Verif.Read Verif.Join

variable {α β : Type}

theorem getBatch_insert_ne {s : Store α β} {fid idx fid' idx' : Nat} {v : List β} (h : (fid, idx) ≠ (fid', idx')) :
    (s.insertBatch fid idx v).getBatch fid' idx' = s.getBatch fid' idx' := by
  unfold Store.getBatch Store.insertBatch
  rw [List.find?_append]
  have : ([((fid, idx), v)].find? (fun x => x.1 == (fid', idx'))) = none := by
    rw [List.find?_singleton]
    have h' : ((fid, idx) == (fid', idx')) = false := by simpa using h
    simp [h']
  rw [this, Option.or_none]

theorem getBatch_insert_eq {s : Store α β} {fid idx : Nat} {v : List β} (h : s.getBatch fid idx = none) :
    (s.insertBatch fid idx v).getBatch fid idx = some v := by
  unfold Store.getBatch at h ⊢
  unfold Store.insertBatch
  have h' : s.batches.find? (fun x => x.1 == (fid, idx)) = none := by simpa using h
  rw [List.find?_append, h']
  simp

theorem getBatch_insertFragment_eq {s : Store α β} {fid idx : Nat} {d : Done α β} :
    (s.insertFragment fid d).getBatch fid idx = none := by
  unfold Store.getBatch Store.insertFragment
  simp only [Option.map_eq_none_iff, List.find?_eq_none, List.mem_filter]
  rintro x ⟨_, hx⟩ he
  have e : x.1 = (fid, idx) := by simpa using he
  rw [e] at hx
  simp at hx

theorem find_filter {γ : Type} (p q : γ → Bool) : ∀ (l : List γ), (∀ x, p x = true → q x = true) →
    (l.filter q).find? p = l.find? p := by
  intro l h
  induction l with
  | nil => rfl
  | cons x l ih =>
    rw [List.filter_cons]
    by_cases hp : p x = true
    · rw [if_pos (h x hp), List.find?_cons_of_pos hp, List.find?_cons_of_pos hp]
    · rw [List.find?_cons_of_neg hp, ← ih]
      by_cases hq : q x = true
      · rw [if_pos hq, List.find?_cons_of_neg hp]
      · rw [if_neg hq]

theorem getBatch_insertFragment_ne {s : Store α β} {fid fid' idx : Nat} {d : Done α β} (h : fid ≠ fid') :
    (s.insertFragment fid d).getBatch fid' idx = s.getBatch fid' idx := by
  unfold Store.getBatch Store.insertFragment
  simp only
  rw [find_filter]
  intro x hx
  have e : x.1 = (fid', idx) := by simpa using hx
  rw [e]
  simp only [bne_iff_ne, ne_eq]
  omega

theorem getFragment_insert_ne {s : Store α β} {fid fid' : Nat} {d : Done α β} (h : fid ≠ fid') :
    (s.insertFragment fid d).getFragment fid' = s.getFragment fid' := by
  unfold Store.getFragment Store.insertFragment
  simp only
  rw [List.find?_append]
  have : ([(fid, d)].find? (fun x => x.1 == fid')) = none := by
    rw [List.find?_singleton]
    have h' : (fid == fid') = false := by simpa using h
    simp [h']
  rw [this, Option.or_none]

theorem getFragment_insert_eq {s : Store α β} {fid : Nat} {d : Done α β} (h : s.getFragment fid = none) :
    (s.insertFragment fid d).getFragment fid = some d := by
  unfold Store.getFragment at h ⊢
  unfold Store.insertFragment
  have h' : s.frags.find? (fun x => x.1 == fid) = none := by simpa using h
  simp only
  rw [List.find?_append, h']
  simp

/-- The rows of a fragment an update gets to see. -/
def liveRows (f : Frag α) (opts : Opts) : List (Row α) := ((List.range f.rows).filter (live f.dv)).map (rowAt f opts)

/-- What is stored for a fragment is the computed values of its first rows, or the finished fragment. -/
structure GoodRows (opts : Opts) (g : Row α → β) (s : Store α β) (f : Frag α) : Prop where
  batch : ∃ vs : List (List β), (∀ idx, s.getBatch f.id idx = vs[idx]?) ∧ vs.flatten <+: (liveRows f opts).map g
  frag : ∀ d, s.getFragment f.id = some d → d.frag = f ∧ Aligned f opts g d.col

theorem goodRows_empty (opts : Opts) (g : Row α → β) (f : Frag α) : GoodRows opts g Store.empty f where
  batch := ⟨[], fun _ => rfl, List.nil_prefix⟩
  frag := fun _ h => nomatch h

section
variable {opts : Opts} {g : Row α → β} {compute : List (Row α) → Except Err (List β)}

theorem prefix_value {pre v rest : List β} {x y : List β} (h : pre ++ v ++ rest = pre ++ (x ++ y)) (hl : x.length = v.length) :
    v = x := by
  rw [List.append_assoc] at h
  have h1 := List.append_cancel_left h
  exact (List.append_inj h1 (by omega)).1

theorem take_succ_flatten {γ : Type} (vs : List (List γ)) (i : Nat) (v : List γ) (h : vs[i]? = some v) :
    (vs.take (i + 1)).flatten = (vs.take i).flatten ++ v := by
  rw [List.take_succ, h]
  simp

theorem cachedLoop_rows (hg : RowWise compute g) (f : Frag α) : ∀ (bs : List (List (Row α))) (idx : Nat) (w : World α β) (r : Restorer)
    (vs : List (List β)), (∀ i, w.store.getBatch f.id i = vs[i]?) → idx ≤ vs.length → vs.flatten <+: (liveRows f opts).map g →
    (liveRows f opts).map g = (vs.take idx).flatten ++ bs.flatten.map g →
    (∃ vs' : List (List β), (∀ (i : Nat), (cachedLoop compute f.id w idx r bs).1.store.getBatch f.id i = vs'[i]?) ∧ vs'.flatten <+: (liveRows f opts).map g) ∧
    (∀ fid i, fid ≠ f.id → (cachedLoop compute f.id w idx r bs).1.store.getBatch fid i = w.store.getBatch fid i) ∧
    (∀ fid, (cachedLoop compute f.id w idx r bs).1.store.getFragment fid = w.store.getFragment fid) ∧
    (∀ out, (cachedLoop compute f.id w idx r bs).2 = .done out → updateLoop (fun b => .ok (b.map g)) r bs = .ok out) := by
  intro bs
  induction bs with
  | nil =>
    intro idx w r vs h1 _ h3 _
    refine ⟨⟨vs, h1, h3⟩, fun _ _ _ => rfl, fun _ => rfl, ?_⟩
    intro out ho
    simp only [cachedLoop, updateLoop] at ho ⊢
    by_cases he : r.exhausted = true
    · rw [if_pos he] at ho ⊢; cases ho; rfl
    · rw [if_neg he] at ho; cases ho
  | cons b bs ih =>
    intro idx w r vs h1 h2 h3 h4
    rw [List.flatten_cons, List.map_append] at h4
    have cont : ∀ (w' : World α β) (v : List β) (vs : List (List β)), (∀ i, w'.store.getBatch f.id i = vs[i]?) → vs[idx]? = some v →
        vs.flatten <+: (liveRows f opts).map g → (liveRows f opts).map g = (vs.take idx).flatten ++ (b.map g ++ bs.flatten.map g) →
        (∀ fid i, fid ≠ f.id → w'.store.getBatch fid i = w.store.getBatch fid i) →
        (∀ fid, w'.store.getFragment fid = w.store.getFragment fid) →
        ∀ x, x = (if b.length ≠ v.length then (w', Out.err .sizeDiffers)
          else
            match restore r v with
            | .error e => (w', .err e)
            | .ok (out, r') =>
              match cachedLoop compute f.id w' (idx + 1) r' bs with
              | (w'', .done rest) => (w'', .done (out ++ rest))
              | x => x) →
        (∃ vs' : List (List β), (∀ (i : Nat), x.1.store.getBatch f.id i = vs'[i]?) ∧ vs'.flatten <+: (liveRows f opts).map g) ∧
        (∀ fid i, fid ≠ f.id → x.1.store.getBatch fid i = w.store.getBatch fid i) ∧
        (∀ fid, x.1.store.getFragment fid = w.store.getFragment fid) ∧
        (∀ out, x.2 = .done out → updateLoop (fun b => .ok (b.map g)) r (b :: bs) = .ok out) := by
      intro w' v vs k1 k2 k3 k4 k5 k6 x hx
      subst hx
      by_cases hl : b.length ≠ v.length
      · rw [if_pos hl]
        exact ⟨⟨vs, k1, k3⟩, k5, k6, fun out ho => nomatch ho⟩
      · rw [if_neg hl]
        have hlt : idx < vs.length := (List.getElem?_eq_some_iff.1 k2).1
        have hv : v = b.map g := by
          obtain ⟨t, ht⟩ := k3
          have e : vs.flatten = (vs.take idx).flatten ++ v ++ (vs.drop (idx + 1)).flatten := by
            rw [← take_succ_flatten vs idx v k2, ← List.flatten_append, List.take_append_drop]
          rw [e, k4, List.append_assoc] at ht
          exact prefix_value ht (by simp; omega)
        simp only [updateLoop]
        rw [if_neg (by simp), ← hv]
        cases hrs : restore r v with
        | error e => exact ⟨⟨vs, k1, k3⟩, k5, k6, fun out ho => nomatch ho⟩
        | ok y =>
          obtain ⟨o, r'⟩ := y
          simp only
          have h5 := ih (idx + 1) w' r' vs k1 (by omega) k3 (by
            rw [take_succ_flatten vs idx v k2, hv, List.append_assoc]; exact k4)
          cases hc : cachedLoop compute f.id w' (idx + 1) r' bs with
          | mk w'' o2 =>
            rw [hc] at h5
            obtain ⟨m1, m2, m3, m4⟩ := h5
            cases o2 with
            | err e => exact ⟨m1, fun fid i hne => (m2 fid i hne).trans (k5 fid i hne), fun fid => (m3 fid).trans (k6 fid), fun out ho => nomatch ho⟩
            | crashed => exact ⟨m1, fun fid i hne => (m2 fid i hne).trans (k5 fid i hne), fun fid => (m3 fid).trans (k6 fid), fun out ho => nomatch ho⟩
            | done rest =>
              refine ⟨m1, fun fid i hne => (m2 fid i hne).trans (k5 fid i hne), fun fid => (m3 fid).trans (k6 fid), ?_⟩
              intro out ho
              cases ho
              rw [m4 rest rfl]
    unfold cachedLoop
    cases hgb : w.store.getBatch f.id idx with
    | some v =>
      exact cont w v vs h1 (by rw [← h1, hgb]) h3 h4 (fun _ _ _ => rfl) (fun _ => rfl) _ rfl
    | none =>
      simp only
      cases hcm : compute b with
      | error e => exact ⟨⟨vs, h1, h3⟩, fun _ _ _ => rfl, fun _ => rfl, fun out ho => nomatch ho⟩
      | ok v =>
        cases hbu : w.budget with
        | zero => exact ⟨⟨vs, h1, h3⟩, fun _ _ _ => rfl, fun _ => rfl, fun out ho => nomatch ho⟩
        | succ n =>
          have hidx : idx = vs.length := by
            have := h1 idx
            rw [hgb] at this
            have := List.getElem?_eq_none_iff.1 this.symm
            omega
          have hv := hg b v hcm
          have htk : vs.take idx = vs := by rw [hidx]; exact List.take_length
          rw [htk] at h4
          apply cont ⟨w.store.insertBatch f.id idx v, n, w.calls + 1⟩ v (vs ++ [v])
          · intro i
            show (w.store.insertBatch f.id idx v).getBatch f.id i = _
            by_cases hi : i = idx
            · subst hi
              rw [getBatch_insert_eq hgb, hidx]
              simp
            · rw [getBatch_insert_ne (by intro e; cases e; exact hi rfl), h1]
              by_cases hlt : i < vs.length
              · rw [List.getElem?_append_left hlt]
              · rw [List.getElem?_eq_none (by omega), List.getElem?_eq_none (by simp; omega)]
          · rw [hidx]; simp
          · rw [List.flatten_append, h4, hv]
            refine ⟨bs.flatten.map g, ?_⟩
            simp
          · rw [h4, hidx, List.take_left]
          · intro fid i hne
            exact getBatch_insert_ne (by intro e; cases e; exact hne rfl)
          · intro fid
            rfl
          · rfl

theorem cachedFragment_rows {split : List α → List (List α)} (hsp : Splits split) (hn : opts.nulls = false) (hg : RowWise compute g)
    (legacy : Option Nat) (f : Frag α) (hf : f.OK) (w : World α β) (h : GoodRows opts g w.store f) :
    GoodRows opts g (cachedFragment split legacy opts compute w f).1.store f ∧
    (∀ f' : Frag α, f'.id ≠ f.id → GoodRows opts g w.store f' → GoodRows opts g (cachedFragment split legacy opts compute w f).1.store f') ∧
    (∀ d, (cachedFragment split legacy opts compute w f).2 = .done d → d.frag = f ∧ Aligned f opts g d.col) := by
  unfold cachedFragment
  cases hgf : w.store.getFragment f.id with
  | some d =>
    refine ⟨h, fun _ _ h' => h', ?_⟩
    intro d' hd
    cases hd
    exact h.frag d hgf
  | none =>
    obtain ⟨bs, r1, r2, _⟩ := readAll_batches split hsp f hf opts hn
    simp only [r1]
    obtain ⟨vs, b1, b2⟩ := h.batch
    have hl := cachedLoop_rows (opts := opts) hg f bs 0 w (Restorer.new (deletedOf f.dv) legacy) vs b1 (Nat.zero_le _) b2
      (by rw [r2]; rfl)
    cases hc : cachedLoop compute f.id w 0 (Restorer.new (deletedOf f.dv) legacy) bs with
    | mk w' o =>
      rw [hc] at hl
      obtain ⟨m1, m2, m3, m4⟩ := hl
      simp only at m1 m2 m3 m4
      have keep : GoodRows opts g w'.store f := ⟨m1, by intro d hd; rw [m3] at hd; exact h.frag d hd⟩
      have keep' : ∀ f' : Frag α, f'.id ≠ f.id → GoodRows opts g w.store f' → GoodRows opts g w'.store f' := by
        intro f' hne h'
        obtain ⟨vs', c1, c2⟩ := h'.batch
        exact ⟨⟨vs', fun i => (m2 f'.id i hne).trans (c1 i), c2⟩, by intro d hd; rw [m3] at hd; exact h'.frag d hd⟩
      cases o with
      | err e => exact ⟨keep, keep', fun d hd => nomatch hd⟩
      | crashed => exact ⟨keep, keep', fun d hd => nomatch hd⟩
      | done col =>
        simp only
        cases hb : w'.budget with
        | zero => exact ⟨keep, keep', fun d hd => nomatch hd⟩
        | succ n =>
          have ha : Aligned f opts g col := by
            apply C58_aligned_partial split legacy f opts (fun b => .ok (b.map g)) g hsp hf hn (by intro b v e; cases e; rfl) col
            unfold runUpdater
            rw [r1]
            exact m4 col rfl
          refine ⟨⟨⟨[], fun i => getBatch_insertFragment_eq, List.nil_prefix⟩, ?_⟩, ?_, ?_⟩
          · intro d hd
            have hnone : w'.store.getFragment f.id = none := by rw [m3]; exact hgf
            rw [getFragment_insert_eq hnone] at hd
            cases hd
            exact ⟨rfl, ha⟩
          · intro f' hne h'
            have h2 := keep' f' hne h'
            obtain ⟨vs', c1, c2⟩ := h2.batch
            refine ⟨⟨vs', fun i => (getBatch_insertFragment_ne (Ne.symm hne)).trans (c1 i), c2⟩, ?_⟩
            intro d hd
            rw [getFragment_insert_ne (Ne.symm hne)] at hd
            exact h2.frag d hd
          · intro d hd
            cases hd
            exact ⟨rfl, ha⟩

theorem cachedRun_rows {split : List α → List (List α)} (hsp : Splits split) (hn : opts.nulls = false) (hg : RowWise compute g)
    (legacy : Frag α → Option Nat) (P : Frag α → Prop) (hid : ∀ f f', P f → P f' → f'.id = f.id → f' = f) (hok : ∀ f, P f → f.OK) :
    ∀ (fs : List (Frag α)) (w : World α β), (∀ f ∈ fs, P f) → (∀ f, P f → GoodRows opts g w.store f) →
    (∀ f, P f → GoodRows opts g (cachedRun split legacy opts compute w fs).1.store f) ∧
    (∀ ds, (cachedRun split legacy opts compute w fs).2 = .done ds →
      ds.map (·.frag) = fs ∧ ∀ d ∈ ds, Aligned d.frag opts g d.col) := by
  intro fs
  induction fs with
  | nil =>
    intro w _ h
    refine ⟨h, ?_⟩
    intro ds hd
    cases hd
    exact ⟨rfl, fun _ hd => nomatch hd⟩
  | cons f fs ih =>
    intro w hP h
    have hf := hP f List.mem_cons_self
    obtain ⟨h1, h2, h3⟩ := cachedFragment_rows hsp hn hg (legacy f) f (hok f hf) w (h f hf)
    unfold cachedRun
    cases hc : cachedFragment split (legacy f) opts compute w f with
    | mk w' o =>
      rw [hc] at h1 h2 h3
      simp only at h1 h2 h3
      have hall : ∀ f', P f' → GoodRows opts g w'.store f' := by
        intro f' hf'
        by_cases e : f'.id = f.id
        · rw [hid f f' hf hf' e]; exact h1
        · exact h2 f' e (h f' hf')
      cases o with
      | err e => exact ⟨hall, fun ds hd => nomatch hd⟩
      | crashed => exact ⟨hall, fun ds hd => nomatch hd⟩
      | done d =>
        obtain ⟨d1, d2⟩ := h3 d rfl
        obtain ⟨i1, i2⟩ := ih w' (fun x hx => hP x (List.mem_cons_of_mem _ hx)) hall
        simp only
        cases hc2 : cachedRun split legacy opts compute w' fs with
        | mk w'' o2 =>
          rw [hc2] at i1 i2
          cases o2 with
          | err e => exact ⟨i1, fun ds hd => nomatch hd⟩
          | crashed => exact ⟨i1, fun ds hd => nomatch hd⟩
          | done rest =>
            refine ⟨i1, ?_⟩
            intro ds hd
            cases hd
            obtain ⟨j1, j2⟩ := i2 rest rfl
            refine ⟨by rw [List.map_cons, d1, j1], ?_⟩
            intro x hx
            rcases List.mem_cons.1 hx with hx | hx
            · subst hx; rw [d1]; exact d2
            · exact j2 x hx

theorem attempts_rows (hn : opts.nulls = false) (hg : RowWise compute g)
    (legacy : Frag α → Option Nat) (P : Frag α → Prop) (hid : ∀ f f', P f → P f' → f'.id = f.id → f' = f) (hok : ∀ f, P f → f.OK) :
    ∀ (as : List (Attempt α)) (s : Store α β) (calls : Nat), (∀ a ∈ as, Splits a.split ∧ ∀ f ∈ a.frags, P f) →
    (∀ f, P f → GoodRows opts g s f) → ∀ f, P f → GoodRows opts g (attempts legacy opts compute s calls as).1 f := by
  intro as
  induction as with
  | nil => intro s _ _ h; exact h
  | cons a as ih =>
    intro s calls ha h
    obtain ⟨h1, h2⟩ := ha a List.mem_cons_self
    unfold attempts
    exact ih _ _ (fun b hb => ha b (List.mem_cons_of_mem _ hb)) (cachedRun_rows h1 hn hg legacy P hid hok a.frags ⟨s, a.budget, calls⟩ h2 h).1

end

end Verif.Resume
