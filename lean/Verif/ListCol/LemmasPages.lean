import Verif.ListCol.Spec
/-! Lemmas about slices, ranges and pages. -/
namespace Verif.ListCol

variable {α : Type}

theorem slice_nil (r : Rng) : slice ([] : List α) r = [] := by simp [slice]

theorem slice_empty (xs : List α) (a : Nat) : slice xs (a, a) = [] := by simp [slice]

theorem length_slice (xs : List α) (r : Rng) (h : r.2 ≤ xs.length) : (slice xs r).length = r.2 - r.1 := by
  simp [slice]; omega

theorem slice_append_left (xs ys : List α) (r : Rng) (h : r.2 ≤ xs.length) : slice (xs ++ ys) r = slice xs r := by
  unfold slice
  by_cases h1 : r.1 ≤ xs.length
  · rw [List.drop_append_of_le_length h1, List.take_append_of_le_length]
    simp; omega
  · have : r.2 - r.1 = 0 := by omega
    simp [this]

theorem slice_append_right (xs ys : List α) (r : Rng) (h : xs.length ≤ r.1) :
    slice (xs ++ ys) r = slice ys (r.1 - xs.length, r.2 - xs.length) := by
  unfold slice
  rw [List.drop_append, List.drop_eq_nil_of_le h]
  simp only [List.nil_append]
  congr 1; omega

theorem slice_split (xs : List α) (a b c : Nat) (h1 : a ≤ b) (h2 : b ≤ c) :
    slice xs (a, c) = slice xs (a, b) ++ slice xs (b, c) := by
  unfold slice
  simp only
  have e : c - a = (b - a) + (c - b) := by omega
  rw [e, List.take_add, List.drop_drop]
  congr 3; omega

theorem slice_all (xs : List α) : slice xs (0, xs.length) = xs := by simp [slice]

theorem slice_map {β : Type} (f : α → β) (xs : List α) (r : Rng) : slice (xs.map f) r = (slice xs r).map f := by
  simp [slice, List.map_take, List.map_drop]

theorem ordered_overlap {n : Nat} : ∀ {rs : List Rng}, Ordered n rs → Overlap n rs
  | [], _ => trivial
  | _ :: _, ⟨h1, h2, h3, h4⟩ => ⟨h1, h2, fun r' h => by have := h3 r' h; omega, ordered_overlap h4⟩

/-- The range as seen from row `go` on. -/
def clamp (go : Nat) (r : Rng) : Rng := (max r.1 go, r.2)

/-- The lists of ranges agree from row `go` on. -/
def Agree (go : Nat) (Q Q' : List Rng) : Prop := Q.map (clamp go) = Q'.map (clamp go)

theorem agree_refl (go : Nat) (Q : List Rng) : Agree go Q Q := rfl

theorem agree_mono {go e : Nat} (h : go ≤ e) {Q Q' : List Rng} (ha : Agree go Q Q') : Agree e Q Q' := by
  have key : ∀ q : Rng, clamp e (clamp go q) = clamp e q := by
    intro q; simp only [clamp]; congr 1; omega
  have := congrArg (List.map (clamp e)) ha
  simp only [List.map_map] at this
  have hf : clamp e ∘ clamp go = clamp e := funext key
  rw [hf] at this
  exact this

theorem agree_cons {go : Nat} {q : Rng} {Q Q' : List Rng} (h : Agree go (q :: Q) Q') :
    ∃ q' Q'', Q' = q' :: Q'' ∧ max q.1 go = max q'.1 go ∧ q.2 = q'.2 ∧ Agree go Q Q'' := by
  cases Q' with
  | nil => simp [Agree] at h
  | cons q' Q'' =>
    simp only [Agree, List.map_cons, List.cons.injEq, clamp, Prod.mk.injEq] at h
    exact ⟨q', Q'', rfl, h.1.1, h.1.2, h.2⟩

theorem agree_nil {go : Nat} {Q' : List Rng} (h : Agree go [] Q') : Q' = [] := by
  simp only [Agree, List.map_nil] at h
  exact List.map_eq_nil_iff.1 h.symm

/-- What is scheduled from a page depends on the ranges from the start of the page on only. -/
theorem inPage_agree (go n : Nat) (hn : 0 < n) : ∀ (Q Q' : List Rng), Agree go Q Q' → ∀ a b, inPage go n Q = some (a, b) →
    ∃ b', inPage go n Q' = some (a, b') ∧ Agree go b b' := by
  intro Q
  induction Q with
  | nil =>
    intro Q' h a b he
    rw [agree_nil h]
    simp only [inPage, Option.some.injEq, Prod.mk.injEq] at he
    refine ⟨[], ?_, ?_⟩
    · simp [inPage, he.1]
    · rw [← he.2]; rfl
  | cons q Q ih =>
    intro Q' h a b he
    have hw := h
    obtain ⟨q', Q'', rfl, h1, h2, h3⟩ := agree_cons h
    have hc : (n + go > q.1) ↔ (n + go > q'.1) := by omega
    unfold inPage at he ⊢
    simp only at he ⊢
    by_cases hp : n + go > q.1
    · rw [if_pos hp] at he
      rw [if_pos (hc.1 hp)]
      simp only [← h1, ← h2]
      by_cases hu : q.2 < max q.1 go
      · rw [if_pos hu] at he; cases he
      · rw [if_neg hu] at he ⊢
        split at he
        · rename_i hl
          rw [if_pos hl]
          cases hi : inPage go n Q with
          | none => rw [hi] at he; cases he
          | some x =>
            rw [hi] at he
            obtain ⟨b', hb, hab⟩ := ih Q'' h3 x.1 x.2 hi
            simp only [Option.map_some, Option.some.injEq, Prod.mk.injEq] at he
            refine ⟨b', ?_, ?_⟩
            · rw [hb]; simp [he.1]
            · rw [← he.2]; exact hab
        · rename_i hl
          rw [if_neg hl]
          simp only [Option.some.injEq, Prod.mk.injEq] at he
          refine ⟨q' :: Q'', ?_, ?_⟩
          · simp [he.1]
          · rw [← he.2]; exact hw
    · rw [if_neg hp] at he
      rw [if_neg (fun h => hp (hc.2 h))]
      simp only [Option.some.injEq, Prod.mk.injEq] at he
      refine ⟨q' :: Q'', ?_, ?_⟩
      · simp [he.1]
      · rw [← he.2]; exact hw

/-- Cut the ranges at row `e`. -/
def cutAt (e : Nat) : List Rng → List Rng × List Rng
  | [] => ([], [])
  | r :: rs =>
    if r.1 < e then
      if r.2 ≤ e then (r :: (cutAt e rs).1, (cutAt e rs).2) else ([(r.1, e)], (e, r.2) :: rs)
    else ([], r :: rs)

/-- All ranges start at `go` or later. -/
def From (go : Nat) (R : List Rng) : Prop := ∀ r ∈ R, go ≤ r.1

/-- The ranges, counted from `go`. -/
def shift (go : Nat) (R : List Rng) : List Rng := R.map (fun r => (r.1 - go, r.2 - go))

theorem inPage_cut (go n N : Nat) : ∀ R : List Rng, Overlap N R → From go R →
    ∃ b, inPage go n R = some (shift go (cutAt (go + n) R).1, b) ∧ Agree (go + n) b (cutAt (go + n) R).2 := by
  intro R
  induction R with
  | nil => intro _ _; exact ⟨[], rfl, rfl⟩
  | cons r rs ih =>
    intro ho hf
    obtain ⟨h1, h2, h3, h4⟩ := ho
    have hr : go ≤ r.1 := hf r List.mem_cons_self
    obtain ⟨b, hb, hab⟩ := ih h4 (fun r' h => hf r' (List.mem_cons_of_mem _ h))
    have hm : max r.1 go = r.1 := by omega
    unfold inPage cutAt
    simp only [hm]
    by_cases hp : r.1 < go + n
    · have hp' : n + go > r.1 := by omega
      rw [if_pos hp', if_pos hp]
      have hu : ¬ r.2 < r.1 := by omega
      rw [if_neg hu]
      by_cases hl : r.2 ≤ go + n
      · have he : min (r.1 - go + (r.2 - r.1)) n = r.2 - go := by omega
        rw [he, if_pos (by omega), if_pos hl, hb]
        exact ⟨b, rfl, hab⟩
      · have he : min (r.1 - go + (r.2 - r.1)) n = n := by omega
        rw [he, if_neg (by omega), if_neg hl]
        refine ⟨r :: rs, ?_, ?_⟩
        · simp only [shift, List.map_cons, List.map_nil, Option.some.injEq, Prod.mk.injEq, and_true]
          congr 2; omega
        · simp only [Agree, List.map_cons, clamp]
          congr 2; omega
    · rw [if_neg (by omega), if_neg hp]
      exact ⟨r :: rs, rfl, rfl⟩

theorem mem_cutAt_snd {e : Nat} : ∀ {R : List Rng} {r' : Rng}, r' ∈ (cutAt e R).2 →
    ∃ r ∈ R, r'.2 = r.2 ∧ r'.1 = max r.1 r'.1 := by
  intro R
  induction R with
  | nil => intro r' h; simp [cutAt] at h
  | cons r rs ih =>
    intro r' h
    unfold cutAt at h
    split at h
    · split at h
      · obtain ⟨x, hx, h1, h2⟩ := ih h
        exact ⟨x, List.mem_cons_of_mem _ hx, h1, h2⟩
      · rcases List.mem_cons.1 h with h | h
        · subst h; exact ⟨r, List.mem_cons_self, rfl, by simp only; omega⟩
        · exact ⟨r', List.mem_cons_of_mem _ h, rfl, by omega⟩
    · exact ⟨r', h, rfl, by omega⟩

theorem cutAt_overlap {N e : Nat} : ∀ {R : List Rng}, Overlap N R → Overlap N (cutAt e R).2
  | [], _ => trivial
  | r :: rs, ⟨h1, h2, h3, h4⟩ => by
    unfold cutAt
    split
    · split
      · exact cutAt_overlap h4
      · rename_i h5 h6
        exact ⟨by simp only; omega, h2, h3, h4⟩
    · exact ⟨h1, h2, h3, h4⟩

theorem cutAt_ordered {N e : Nat} : ∀ {R : List Rng}, Ordered N R → Ordered N (cutAt e R).2
  | [], _ => trivial
  | r :: rs, ⟨h1, h2, h3, h4⟩ => by
    unfold cutAt
    split
    · split
      · exact cutAt_ordered h4
      · rename_i h5 h6
        exact ⟨by simp only; omega, h2, h3, h4⟩
    · exact ⟨h1, h2, h3, h4⟩

theorem cutAt_from {N e : Nat} : ∀ {R : List Rng}, Overlap N R → From e (cutAt e R).2
  | [], _ => fun _ h => by cases h
  | r :: rs, ⟨h1, h2, h3, h4⟩ => by
    unfold cutAt
    split
    · split
      · exact cutAt_from h4
      · rename_i h5 h6
        intro r' h
        rcases List.mem_cons.1 h with h | h
        · subst h; simp
        · have := h3 r' h; omega
    · rename_i h5
      intro r' h
      rcases List.mem_cons.1 h with h | h
      · subst h; omega
      · have := h3 r' h; omega

/-- What is inside the page. -/
theorem cutAt_inside {go e : Nat} : ∀ {R : List Rng}, From go R → Ordered N R →
    Ordered e (cutAt e R).1 ∧ From go (cutAt e R).1 ∧ (∀ x, (∀ r ∈ R, x ≤ r.1) → ∀ r ∈ (cutAt e R).1, x ≤ r.1) := by
  intro R
  induction R with
  | nil => intro _ _; exact ⟨trivial, fun _ h => (nomatch h), fun _ _ _ h => (nomatch h)⟩
  | cons r rs ih =>
    intro hf ho
    obtain ⟨h1, h2, h3, h4⟩ := ho
    have hr : go ≤ r.1 := hf r List.mem_cons_self
    obtain ⟨i1, i2, i3⟩ := ih (fun r' h => hf r' (List.mem_cons_of_mem _ h)) h4
    unfold cutAt
    split
    · split
      · rename_i h5 h6
        refine ⟨⟨h1, h6, i3 r.2 h3, i1⟩, ?_, ?_⟩
        · intro r' h
          rcases List.mem_cons.1 h with h | h
          · subst h; exact hr
          · exact i2 r' h
        · intro x hx r' h
          rcases List.mem_cons.1 h with h | h
          · subst h; exact hx _ List.mem_cons_self
          · exact i3 x (fun y hy => hx y (List.mem_cons_of_mem _ hy)) r' h
      · rename_i h5 h6
        refine ⟨⟨h5, Nat.le_refl _, fun _ h => (nomatch h), trivial⟩, ?_, ?_⟩
        · intro r' h
          rcases List.mem_cons.1 h with h | h
          · subst h; exact hr
          · cases h
        · intro x hx r' h
          rcases List.mem_cons.1 h with h | h
          · subst h; exact hx r List.mem_cons_self
          · cases h
    · exact ⟨trivial, fun _ h => (nomatch h), fun _ _ _ h => (nomatch h)⟩

theorem rows_cons (r : Rng) (rs : List Rng) : rows (r :: rs) = (r.2 - r.1) + rows rs := by simp [rows]

theorem rows_cut (N e : Nat) : ∀ R : List Rng, Overlap N R → rows R = rows (cutAt e R).1 + rows (cutAt e R).2
  | [], _ => rfl
  | r :: rs, ⟨h1, _, _, h4⟩ => by
    unfold cutAt
    split
    · split
      · simp only [rows_cons]; rw [rows_cut N e rs h4]; omega
      · simp only [rows_cons, show rows [] = 0 from rfl]; omega
    · simp [rows]

theorem rows_shift (go : Nat) (R : List Rng) (hf : From go R) : rows (shift go R) = rows R := by
  induction R with
  | nil => rfl
  | cons r rs ih =>
    have := ih (fun r' h => hf r' (List.mem_cons_of_mem _ h))
    have hr := hf r List.mem_cons_self
    simp only [shift, List.map_cons, rows_cons] at this ⊢
    rw [this]; omega

/-- The rows that ranges name, page by page. -/
theorem wanted_cut (go N : Nat) (p rest : List α) : ∀ R : List Rng, Overlap N R → From go R →
    wanted (p ++ rest) (shift go R) =
      wanted p (shift go (cutAt (go + p.length) R).1) ++
        wanted rest (shift (go + p.length) (cutAt (go + p.length) R).2) := by
  intro R
  induction R with
  | nil => intro _ _; rfl
  | cons r rs ih =>
    intro ho hf
    obtain ⟨h1, h2, h3, h4⟩ := ho
    have hr : go ≤ r.1 := hf r List.mem_cons_self
    have hi := ih h4 (fun r' h => hf r' (List.mem_cons_of_mem _ h))
    have later : ∀ qs : List Rng, From (go + p.length) qs →
        wanted (p ++ rest) (shift go qs) = wanted rest (shift (go + p.length) qs) := by
      intro qs
      induction qs with
      | nil => intro _; rfl
      | cons q qs ihq =>
        intro hq
        have h5 := hq q List.mem_cons_self
        have h6 := ihq (fun r' h => hq r' (List.mem_cons_of_mem _ h))
        simp only [wanted, shift, List.map_cons, List.flatMap_cons] at h6 ⊢
        rw [h6]
        congr 1
        rw [slice_append_right _ _ _ (by simp only; omega)]
        congr 2 <;> simp only <;> omega
    unfold cutAt
    by_cases h5 : r.1 < go + p.length
    · rw [if_pos h5]
      by_cases h6 : r.2 ≤ go + p.length
      · rw [if_pos h6]
        simp only [wanted, shift, List.map_cons, List.flatMap_cons, List.append_assoc] at hi ⊢
        rw [hi, slice_append_left _ _ _ (by simp only; omega)]
      · rw [if_neg h6]
        have hl := later rs (fun r' h => by have := h3 r' h; omega)
        simp only [wanted, shift, List.map_cons, List.flatMap_cons, List.map_nil, List.flatMap_nil,
          List.append_nil] at hl ⊢
        rw [hl]
        rw [slice_split (p ++ rest) (r.1 - go) p.length (r.2 - go) (by omega) (by omega)]
        rw [slice_append_left _ _ _ (by simp only; omega), slice_append_right _ _ (p.length, r.2 - go) (by simp only; omega)]
        rw [List.append_assoc]
        congr 2
        · congr 2; omega
        · congr 2 <;> simp only <;> omega
    · rw [if_neg h5]
      have hl := later (r :: rs) (fun r' h => by
        rcases List.mem_cons.1 h with h | h
        · subst h; omega
        · have := h3 r' h; omega)
      simpa [wanted, shift] using hl

theorem skipPages_stay {go : Nat} {r : Rng} {p : List α} {ps : List (List α)} (h : r.1 < go + p.length) :
    skipPages r.1 go (p :: ps) = some (go, p :: ps) := by
  unfold skipPages; rw [if_neg (by omega)]

theorem next_skip {go : Nat} {Q : List Rng} {p : List α} {ps : List (List α)} (h : ∀ q Q', Q = q :: Q' → go + p.length ≤ q.1) :
    Job.next ⟨p :: ps, Q, go⟩ = Job.next ⟨ps, Q, go + p.length⟩ := by
  unfold Job.next
  cases Q with
  | nil => rfl
  | cons q Q =>
    have := h q Q rfl
    simp only
    rw [show skipPages q.1 go (p :: ps) = skipPages q.1 (go + p.length) ps by
      conv => lhs; unfold skipPages
      rw [if_pos (by omega)]]

/-- One page with ranges in it. -/
theorem next_page {go N : Nat} {R Q : List Rng} {p : List α} {ps : List (List α)} {r : Rng} {rs : List Rng}
    (hp : 0 < p.length) (hR : R = r :: rs) (hr : r.1 < go + p.length) (ho : Overlap N R) (hf : From go R)
    (ha : Agree go R Q) :
    ∃ b, Job.next ⟨p :: ps, Q, go⟩ = some (shift go (cutAt (go + p.length) R).1,
        wanted p (shift go (cutAt (go + p.length) R).1), ⟨ps, b, go + p.length⟩) ∧
      Agree (go + p.length) (cutAt (go + p.length) R).2 b := by
  obtain ⟨b, h1, h2⟩ := inPage_cut go p.length N R ho hf
  obtain ⟨b', h3, h4⟩ := inPage_agree go p.length hp R Q ha _ _ h1
  refine ⟨b', ?_, ?_⟩
  · subst hR
    obtain ⟨q', Q'', rfl, e1, e2, -⟩ := agree_cons ha
    have hg : go ≤ r.1 := hf r List.mem_cons_self
    unfold Job.next
    simp only
    rw [skipPages_stay (by omega)]
    simp only
    rw [h3]
    rfl
  · have := agree_mono (Nat.le_add_right go p.length) h4
    exact h2.symm.trans this

theorem run_pages : ∀ (ps : List (List α)) (f go : Nat) (R Q : List Rng), (∀ p ∈ ps, 0 < p.length) → ps.length ≤ f →
    Overlap (go + ps.flatten.length) R → From go R → Agree go R Q →
    ∃ out, Job.run f (rows R) ⟨ps, Q, go⟩ = some out ∧ out.flatten = wanted ps.flatten (shift go R) := by
  intro ps
  induction ps with
  | nil =>
    intro f go R Q _ _ ho hf _
    cases R with
    | nil => exact ⟨[], by unfold Job.run; simp [rows], rfl⟩
    | cons r rs =>
      obtain ⟨h1, h2, _⟩ := ho
      have := hf r List.mem_cons_self
      simp at h2; omega
  | cons p ps ih =>
    intro f go R Q hp hl ho hf ha
    have hp0 := hp p List.mem_cons_self
    cases hR : R with
    | nil => exact ⟨[], by unfold Job.run; simp [rows], rfl⟩
    | cons r rs =>
      have ho' := ho; have hf' := hf
      rw [hR] at ho' hf'
      obtain ⟨h1, h2, h3, h4⟩ := ho'
      have hg : go ≤ r.1 := hf' r List.mem_cons_self
      have hpos : rows (r :: rs) ≠ 0 := by rw [rows_cons]; omega
      have hlen : go + (p :: ps).flatten.length = go + p.length + ps.flatten.length := by simp; omega
      have hcat : (p :: ps).flatten = p ++ ps.flatten := by simp
      cases f with
      | zero => simp at hl
      | succ f =>
        by_cases hr : r.1 < go + p.length
        · obtain ⟨b, hn, hb⟩ := next_page (ps := ps) hp0 hR hr ho hf ha
          rw [← hR] at hpos ⊢
          unfold Job.run
          rw [if_neg hpos]
          simp only [hn]
          have hin := rows_cut _ (go + p.length) R ho
          have hrs : rows (shift go (cutAt (go + p.length) R).1) = rows (cutAt (go + p.length) R).1 := by
            refine rows_shift go _ ?_
            intro x hx
            have : ∀ (R : List Rng), From go R → From go (cutAt (go + p.length) R).1 := by
              intro R
              induction R with
              | nil => intro _ _ h; cases h
              | cons y ys ihy =>
                intro hf
                unfold cutAt
                split
                · split
                  · intro z hz
                    rcases List.mem_cons.1 hz with hz | hz
                    · subst hz; exact hf _ List.mem_cons_self
                    · exact ihy (fun r' h => hf r' (List.mem_cons_of_mem _ h)) z hz
                  · intro z hz
                    rcases List.mem_cons.1 hz with hz | hz
                    · subst hz; exact hf y List.mem_cons_self
                    · cases hz
                · intro z hz; cases hz
            exact this R hf x hx
          rw [hrs, show rows R - rows (cutAt (go + p.length) R).1 = rows (cutAt (go + p.length) R).2 by omega]
          obtain ⟨out, e1, e2⟩ := ih f (go + p.length) (cutAt (go + p.length) R).2 b
            (fun x h => hp x (List.mem_cons_of_mem _ h)) (by simp at hl; omega) (by rw [← hlen]; exact cutAt_overlap ho)
            (cutAt_from ho) hb
          rw [e1]
          refine ⟨_, rfl, ?_⟩
          rw [List.flatten_cons, e2, hcat, wanted_cut go _ p ps.flatten R ho hf]
        · have hcut : cutAt (go + p.length) R = ([], R) := by rw [hR]; unfold cutAt; rw [if_neg hr]
          have hfe : From (go + p.length) R := by
            have := cutAt_from (e := go + p.length) ho; rwa [hcut] at this
          have hsk : ∀ q Q', Q = q :: Q' → go + p.length ≤ q.1 := by
            intro q Q' hq
            subst hq hR
            obtain ⟨q', Q'', e, e1, e2, -⟩ := agree_cons ha
            cases e
            omega
          obtain ⟨out, e1, e2⟩ := ih (f + 1) (go + p.length) R Q
            (fun x h => hp x (List.mem_cons_of_mem _ h)) (by simp at hl; omega) (by rw [← hlen]; exact ho) hfe
            (agree_mono (Nat.le_add_right _ _) ha)
          refine ⟨out, ?_, ?_⟩
          · rw [← hR, ← e1]
            unfold Job.run
            rw [next_skip hsk]
          · rw [e2, ← hR, hcat, wanted_cut go _ p ps.flatten R ho hf, hcut]
            rfl

theorem filter_flatten (pages : List (List α)) : (pages.filter (fun p => 0 < p.length)).flatten = pages.flatten := by
  induction pages with
  | nil => rfl
  | cons p ps ih =>
    rw [List.filter_cons]
    split
    · simp [ih]
    · rename_i h
      have : p = [] := by cases p <;> simp_all
      simp [ih, this]

theorem shift_zero (R : List Rng) : shift 0 R = R := by simp [shift]

theorem readPages_overlap (pages : List (List α)) (R : List Rng) (h : Overlap pages.flatten.length R) :
    readPages pages R = some (wanted pages.flatten R) := by
  unfold readPages
  obtain ⟨out, e1, e2⟩ := run_pages (pages.filter (fun p => 0 < p.length)) _ 0 R R (by simp) (Nat.le_refl _)
    (by rw [filter_flatten]; simpa using h) (fun _ _ => Nat.zero_le _) rfl
  simp only
  rw [e1]
  simp only [Option.map_some]
  rw [e2, filter_flatten, shift_zero]

end Verif.ListCol
