import Verif.Stats.Lemmas

/-! # Lemmas: statistics of strings and binary values -/
namespace Verif.Stats

/-! ## The order -/

theorem lexLe_refl : ∀ a, LexLe a a
  | [] => trivial
  | _ :: as => .inr ⟨rfl, lexLe_refl as⟩

theorem lexLe_trans : ∀ {a b c : List Nat}, LexLe a b → LexLe b c → LexLe a c
  | [], _, _, _, _ => trivial
  | _ :: _, [], _, h, _ => h.elim
  | _ :: _, _ :: _, [], _, h => h.elim
  | x :: a, y :: b, z :: c, h1, h2 => by
    unfold LexLe at h1 h2 ⊢
    rcases h1 with h1 | ⟨h1, h1'⟩
    · rcases h2 with h2 | ⟨h2, _⟩
      · exact .inl (by omega)
      · exact .inl (by omega)
    · rcases h2 with h2 | ⟨h2, h2'⟩
      · exact .inl (by omega)
      · exact .inr ⟨by omega, lexLe_trans h1' h2'⟩

theorem lexLe_append (a r : List Nat) : LexLe a (a ++ r) := by
  induction a with
  | nil => exact trivial
  | cons x a ih => exact .inr ⟨rfl, ih⟩

theorem lexLe_common (p : List Nat) {a b : List Nat} (h : LexLe a b) : LexLe (p ++ a) (p ++ b) := by
  induction p with
  | nil => exact h
  | cons x p ih => exact .inr ⟨rfl, ih⟩

/-- Below, and not a prefix: anything that begins with it is below. -/
theorem lexLe_extend {q t : List Nat} (h : LexLe q t) (hn : ¬ q <+: t) (r : List Nat) : LexLe (q ++ r) t := by
  induction q generalizing t with
  | nil => exact absurd (List.nil_prefix) hn
  | cons x q ih =>
    cases t with
    | nil => exact h.elim
    | cons y t =>
      rcases h with h | ⟨h, h'⟩
      · exact .inl h
      · subst h
        exact .inr ⟨rfl, ih h' (fun hp => hn (List.cons_prefix_cons.2 ⟨rfl, hp⟩))⟩

theorem bytesCmp_gt : ∀ {a b : List Nat}, bytesCmp a b ≠ .gt → LexLe a b
  | [], _, _ => trivial
  | _ :: _, [], h => absurd rfl h
  | x :: a, y :: b, h => by
    unfold bytesCmp at h
    unfold LexLe
    by_cases h1 : x < y
    · exact .inl h1
    · rw [if_neg h1] at h
      by_cases h2 : y < x
      · rw [if_pos h2] at h; exact absurd rfl h
      · rw [if_neg h2] at h
        exact .inr ⟨by omega, bytesCmp_gt h⟩

theorem bytesCmp_lt : ∀ {a b : List Nat}, bytesCmp a b ≠ .lt → LexLe b a
  | _, [], _ => trivial
  | [], _ :: _, h => absurd rfl h
  | x :: a, y :: b, h => by
    unfold bytesCmp at h
    unfold LexLe
    by_cases h1 : x < y
    · rw [if_pos h1] at h; exact absurd rfl h
    · rw [if_neg h1] at h
      by_cases h2 : y < x
      · exact .inl h2
      · rw [if_neg h2] at h
        exact .inr ⟨by omega, bytesCmp_lt h⟩

/-! ## Increments -/

/-- Larger than anything that begins with the value. -/
def Beyond (t u : List Nat) : Prop := ∀ r, LexLe (t ++ r) u

theorem incUtf8Loop_beyond (rp : List Nat) : ∀ suf u, incUtf8Loop rp suf = some u → Beyond rp.reverse u := by
  induction rp with
  | nil => intro suf u h; exact nomatch h
  | cons b rp ih =>
    intro suf u h r
    unfold incUtf8Loop at h
    rw [List.reverse_cons, List.append_assoc]
    split at h
    · rename_i x hx
      cases h
      have hm := List.mem_of_find?_eq_some hx
      rw [List.mem_range'_1] at hm
      exact lexLe_common _ (.inl (by omega))
    · exact ih _ _ h _

theorem incUtf8_beyond {t u : List Nat} (h : incUtf8 t = some u) : Beyond t u := by
  have := incUtf8Loop_beyond t.reverse [] u h
  rwa [List.reverse_reverse] at this

theorem incLoop_beyond (rp : List Nat) : ∀ suf u, incLoop rp suf = some u → Beyond rp.reverse u := by
  induction rp with
  | nil => intro suf u h; exact nomatch h
  | cons b rp ih =>
    intro suf u h r
    unfold incLoop at h
    rw [List.reverse_cons, List.append_assoc]
    split at h
    · cases h
      exact lexLe_common _ (.inl (by omega))
    · exact ih _ _ h _

theorem inc_beyond {t u : List Nat} (h : inc t = some u) : Beyond t u := by
  have := incLoop_beyond t.reverse [] u h
  rwa [List.reverse_reverse] at this

/-! ## Truncation -/

/-- The value as the statistics see it. -/
def cutTo (trunc : List Nat → Nat → Option (List Nat)) (v : List Nat) : Option (List Nat) :=
  if v.length > prefixLen then trunc v prefixLen else some v

theorem chars_flatten : ∀ l, (chars l).flatten = l
  | [] => rfl
  | b :: bs => by
    have ih := chars_flatten bs
    unfold chars
    split
    · rename_i h; rw [h] at ih; rw [← ih]; rfl
    · rename_i c cs h
      rw [h] at ih
      split
      · rw [← ih]; rfl
      · rw [← ih]; rfl

theorem chars_ne : ∀ l, ∀ c ∈ chars l, c ≠ []
  | [] => fun _ h => nomatch h
  | b :: bs => by
    have ih := chars_ne bs
    intro c hc
    unfold chars at hc
    split at hc
    · simp at hc; rw [hc]; simp
    · rename_i d ds h
      rw [h] at ih
      split at hc
      · rcases List.mem_cons.1 hc with hc | hc
        · rw [hc]; simp
        · exact ih c (List.mem_cons_of_mem _ hc)
      · rcases List.mem_cons.1 hc with hc | hc
        · rw [hc]; simp
        · exact ih c hc

theorem chars_head {l : List Nat} {c : List Nat} {cs : List (List Nat)} (h : chars l = c :: cs) : c.headD 0 = l.headD 0 := by
  have hf := chars_flatten l
  rw [h] at hf
  have hc := chars_ne l c (by rw [h]; exact List.mem_cons_self)
  cases c with
  | nil => exact absurd rfl hc
  | cons x c => rw [← hf]; rfl

theorem chars_nil_iff {l : List Nat} : chars l = [] ↔ l = [] := by
  constructor
  · intro h
    have := chars_flatten l
    rw [h] at this
    exact this.symm
  · intro h; rw [h]; rfl

def charsStep (b : Nat) : List (List Nat) → List (List Nat)
  | [] => [[b]]
  | c :: cs => if isCont (c.headD 0) then (b :: c) :: cs else [b] :: c :: cs

theorem chars_cons (b : Nat) (bs : List Nat) : chars (b :: bs) = charsStep b (chars bs) := by
  rw [chars]
  unfold charsStep
  cases chars bs <;> rfl

/-- The characters of two strings joined, the second of which begins with a character. -/
theorem chars_append (a : List Nat) {b : List Nat} (hb : isCont (b.headD 0) = false) : chars (a ++ b) = chars a ++ chars b := by
  induction a with
  | nil => rfl
  | cons x a ih =>
    rw [List.cons_append, chars_cons, chars_cons, ih]
    cases ha : chars a with
    | nil =>
      rw [List.nil_append]
      cases hcb : chars b with
      | nil => rfl
      | cons c cs =>
        unfold charsStep
        simp only
        rw [chars_head hcb, hb]
        rfl
    | cons c cs =>
      rw [List.cons_append]
      unfold charsStep
      simp only
      split <;> rfl

theorem truncLoop_prefix (n : Nat) (cs : List (List Nat)) (p : List Nat) (h : truncLoop n cs = some p) :
    p <+: cs.reverse.flatten ∧ p.length ≤ n := by
  induction cs with
  | nil => exact nomatch h
  | cons c cs ih =>
    unfold truncLoop at h
    split at h
    · rename_i hl
      cases h
      exact ⟨List.prefix_rfl, hl⟩
    · obtain ⟨h1, h2⟩ := ih h
      refine ⟨h1.trans ?_, h2⟩
      rw [List.reverse_cons, List.flatten_append]
      exact List.prefix_append _ _

theorem truncUtf8_prefix {v p : List Nat} {n : Nat} (h : truncUtf8 v n = some p) : p <+: v ∧ p.length ≤ n := by
  unfold truncUtf8 at h
  split at h
  · exact nomatch h
  · have := truncLoop_prefix _ _ _ h
    rwa [List.reverse_reverse, chars_flatten] at this

/-- The characters from the end are left out until the rest is short enough. -/
theorem truncLoop_drop (n : Nat) (keep : List (List Nat)) (hk : keep ≠ []) (hn : keep.reverse.flatten.length = n) :
    ∀ cs : List (List Nat), (∀ c ∈ cs, c ≠ []) → truncLoop n (cs ++ keep) = some keep.reverse.flatten := by
  intro cs
  induction cs with
  | nil =>
    intro _
    cases keep with
    | nil => exact absurd rfl hk
    | cons c keep =>
      rw [List.nil_append]
      unfold truncLoop
      rw [if_pos (by omega)]
  | cons c cs ih =>
    intro hne
    rw [List.cons_append]
    unfold truncLoop
    have hc := List.length_pos_iff.2 (hne c List.mem_cons_self)
    have hgt : ¬ (c :: (cs ++ keep)).reverse.flatten.length ≤ n := by
      rw [List.reverse_cons, List.reverse_append, List.flatten_append, List.flatten_append, List.length_append, List.length_append, hn]
      simp
      omega
    rw [if_neg hgt]
    exact ih (fun d hd => hne d (List.mem_cons_of_mem _ hd))

/-- A string with a character boundary there is truncated there. -/
theorem truncUtf8_boundary {v : List Nat} {n : Nat} (hn : 0 < n) (hl : n ≤ v.length) (hb : isCont (v.getD n 0) = false) :
    truncUtf8 v n = some (v.take n) := by
  unfold truncUtf8
  rw [if_neg (by omega)]
  have hd : isCont ((v.drop n).headD 0) = false := by
    rw [← hb]
    congr 1
    rw [List.headD_eq_head?_getD, List.head?_drop, List.getD_eq_getElem?_getD]
  have hc := chars_append (v.take n) hd
  rw [List.take_append_drop] at hc
  rw [hc, List.reverse_append]
  have hk : (chars (v.take n)).reverse ≠ [] := by
    intro he
    have := chars_nil_iff.1 (List.reverse_eq_nil_iff.1 he)
    have hlen := congrArg List.length this
    rw [List.length_take, List.length_nil] at hlen
    omega
  have := truncLoop_drop n (chars (v.take n)).reverse hk (by rw [List.reverse_reverse, chars_flatten, List.length_take]; omega)
    (chars (v.drop n)).reverse (fun c hc => chars_ne _ c (List.mem_reverse.1 hc))
  rw [this, List.reverse_reverse, chars_flatten]

/-! ### Truncation finds a boundary -/

theorem truncLoop_some (n : Nat) (c : List Nat) (hc : c.length ≤ n) (cs : List (List Nat)) : (truncLoop n (cs ++ [c])).isSome = true := by
  induction cs with
  | nil =>
    rw [List.nil_append]
    unfold truncLoop
    rw [if_pos (by simpa using hc)]
    rfl
  | cons d cs ih =>
    rw [List.cons_append]
    unfold truncLoop
    split
    · rfl
    · exact ih

theorem chars_short {l : List Nat} : ∀ c ∈ chars l, c.length ≤ l.length := by
  intro c hc
  have := chars_flatten l
  have h2 : c.length ≤ (chars l).flatten.length := by
    obtain ⟨s, t, e⟩ := List.append_of_mem hc
    rw [e, List.flatten_append, List.flatten_cons, List.length_append, List.length_append]
    omega
  rwa [this] at h2

theorem utf8_chars : ∀ (k : Nat) (l : List Nat), l.length ≤ k → utf8Valid l = true →
    isCont (l.headD 0) = false ∧ ∀ c ∈ chars l, c.length ≤ 4 := by
  intro k
  induction k with
  | zero =>
    intro l hl _
    have : l = [] := List.length_eq_zero_iff.1 (by omega)
    subst this
    exact ⟨rfl, fun _ h => nomatch h⟩
  | succ k ih =>
    intro l hl h
    have step : ∀ (a rest : List Nat), a ≠ [] → a.length ≤ 4 → l = a ++ rest → utf8Valid rest = true →
        isCont (a.headD 0) = false → isCont (l.headD 0) = false ∧ ∀ c ∈ chars l, c.length ≤ 4 := by
      intro a rest ha ha4 hl' hr hh
      have hal := List.length_pos_iff.2 ha
      have hlen : rest.length ≤ k := by
        have := congrArg List.length hl'
        rw [List.length_append] at this
        omega
      obtain ⟨i1, i2⟩ := ih rest hlen hr
      rw [hl']
      refine ⟨?_, ?_⟩
      · cases a with
        | nil => exact absurd rfl ha
        | cons x a => exact hh
      · intro c hc
        rw [chars_append a i1, List.mem_append] at hc
        rcases hc with hc | hc
        · exact Nat.le_trans (chars_short c hc) ha4
        · exact i2 c hc
    have nc : ∀ a : Nat, a < 0x80 ∨ 0xC0 ≤ a → isCont a = false := by
      intro a ha
      simp only [isCont, Bool.and_eq_false_iff, decide_eq_false_iff_not]
      omega
    cases l with
    | nil => exact ⟨rfl, fun _ h => nomatch h⟩
    | cons a rest =>
      unfold utf8Valid at h
      by_cases h1 : a < 0x80
      · rw [if_pos h1] at h
        exact step [a] rest (by simp) (by simp) rfl h (nc a (.inl h1))
      · rw [if_neg h1] at h
        cases rest with
        | nil => exact nomatch h
        | cons b rest =>
          simp only at h
          by_cases h2 : 0xC2 ≤ a ∧ a < 0xE0
          · rw [if_pos h2] at h
            exact step [a, b] rest (by simp) (by simp) rfl (Bool.and_eq_true _ _ ▸ h).2 (nc a (by omega))
          · rw [if_neg h2] at h
            cases rest with
            | nil => exact nomatch h
            | cons c rest =>
              simp only at h
              by_cases h3 : a = 0xE0
              · rw [if_pos h3] at h
                simp only [Bool.and_eq_true] at h
                exact step [a, b, c] rest (by simp) (by simp) rfl h.2 (nc a (by omega))
              · rw [if_neg h3] at h
                by_cases h4 : (0xE1 ≤ a ∧ a < 0xED) ∨ a = 0xEE ∨ a = 0xEF
                · rw [if_pos h4] at h
                  simp only [Bool.and_eq_true] at h
                  exact step [a, b, c] rest (by simp) (by simp) rfl h.2 (nc a (by omega))
                · rw [if_neg h4] at h
                  by_cases h5 : a = 0xED
                  · rw [if_pos h5] at h
                    simp only [Bool.and_eq_true] at h
                    exact step [a, b, c] rest (by simp) (by simp) rfl h.2 (nc a (by omega))
                  · rw [if_neg h5] at h
                    cases rest with
                    | nil => exact nomatch h
                    | cons d rest =>
                      simp only at h
                      by_cases h6 : a = 0xF0
                      · rw [if_pos h6] at h
                        simp only [Bool.and_eq_true] at h
                        exact step [a, b, c, d] rest (by simp) (by simp) rfl h.2 (nc a (by omega))
                      · rw [if_neg h6] at h
                        by_cases h7 : 0xF1 ≤ a ∧ a < 0xF4
                        · rw [if_pos h7] at h
                          simp only [Bool.and_eq_true] at h
                          exact step [a, b, c, d] rest (by simp) (by simp) rfl h.2 (nc a (by omega))
                        · rw [if_neg h7] at h
                          by_cases h8 : a = 0xF4
                          · rw [if_pos h8] at h
                            simp only [Bool.and_eq_true] at h
                            exact step [a, b, c, d] rest (by simp) (by simp) rfl h.2 (nc a (by omega))
                          · rw [if_neg h8] at h
                            exact nomatch h

theorem truncUtf8_total {v : List Nat} {n : Nat} (hn : 4 ≤ n) (hl : n ≤ v.length) (hv : utf8Valid v = true) :
    (truncUtf8 v n).isSome = true := by
  unfold truncUtf8
  rw [if_neg (by omega)]
  cases hc : chars v with
  | nil =>
    have := chars_nil_iff.1 hc
    subst this
    simp at hl
    omega
  | cons c cs =>
    rw [List.reverse_cons]
    exact truncLoop_some n c (Nat.le_trans ((utf8_chars _ v (Nat.le_refl _) hv).2 c (by rw [hc]; exact List.mem_cons_self)) hn) _

/-! ## The loop -/

/-- The invariant: the bounds lie around the cut values; the flag says if one was cut. -/
structure BInv (trunc : List Nat → Nat → Option (List Nat)) (seen : List (List Nat))
    (s : Option (List Nat) × Option (List Nat) × Bool) : Prop where
  lo : ∀ v ∈ seen, ∃ q m, cutTo trunc v = some q ∧ s.1 = some m ∧ LexLe m q
  hi : ∀ v ∈ seen, ∃ q m, cutTo trunc v = some q ∧ s.2.1 = some m ∧ LexLe q m
  long : ∀ v ∈ seen, v.length > prefixLen → s.2.2 = true
  mem : ∀ m, s.2.1 = some m → ∃ v ∈ seen, cutTo trunc v = some m

theorem bytesStep_inv {trunc : List Nat → Nat → Option (List Nat)} {seen : List (List Nat)}
    {s s' : Option (List Nat) × Option (List Nat) × Bool} {v : List Nat} (hi : BInv trunc seen s) (h : bytesStep trunc s v = some s') :
    BInv trunc (seen ++ [v]) s' := by
  obtain ⟨mn, mx, fl⟩ := s
  unfold bytesStep at h
  simp only [Option.map_eq_some_iff] at h
  obtain ⟨⟨q, fl'⟩, hq, h⟩ := h
  subst h
  have hcut : cutTo trunc v = some q ∧ (fl = true → fl' = true) ∧ (v.length > prefixLen → fl' = true) := by
    unfold cutTo
    by_cases hl : v.length > prefixLen
    · rw [if_pos hl] at hq ⊢
      rw [Option.map_eq_some_iff] at hq
      obtain ⟨q', h1, h2⟩ := hq
      cases h2
      exact ⟨h1, fun _ => rfl, fun _ => rfl⟩
    · rw [if_neg hl] at hq ⊢
      cases hq
      exact ⟨rfl, id, fun h => absurd h hl⟩
  obtain ⟨hcut, hfl, hlong⟩ := hcut
  refine ⟨?_, ?_, ?_, ?_⟩
  · intro w hw
    simp only
    rcases List.mem_append.1 hw with hw | hw
    · obtain ⟨qw, m, h1, h2, h3⟩ := hi.lo w hw
      simp only at h2
      rw [h2]
      simp only
      by_cases hc : bytesCmp q m = .lt
      · rw [if_pos hc]
        exact ⟨qw, q, h1, rfl, lexLe_trans (bytesCmp_gt (by rw [hc]; exact fun e => nomatch e)) h3⟩
      · rw [if_neg hc]
        exact ⟨qw, m, h1, rfl, h3⟩
    · rw [List.mem_singleton] at hw
      subst hw
      cases mn with
      | none => exact ⟨q, q, hcut, rfl, lexLe_refl q⟩
      | some m =>
        simp only
        by_cases hc : bytesCmp q m = .lt
        · rw [if_pos hc]; exact ⟨q, q, hcut, rfl, lexLe_refl q⟩
        · rw [if_neg hc]; exact ⟨q, m, hcut, rfl, bytesCmp_lt hc⟩
  · intro w hw
    simp only
    rcases List.mem_append.1 hw with hw | hw
    · obtain ⟨qw, m, h1, h2, h3⟩ := hi.hi w hw
      simp only at h2
      rw [h2]
      simp only
      by_cases hc : bytesCmp q m = .gt
      · rw [if_pos hc]
        exact ⟨qw, q, h1, rfl, lexLe_trans h3 (bytesCmp_lt (by rw [hc]; exact fun e => nomatch e))⟩
      · rw [if_neg hc]
        exact ⟨qw, m, h1, rfl, h3⟩
    · rw [List.mem_singleton] at hw
      subst hw
      cases mx with
      | none => exact ⟨q, q, hcut, rfl, lexLe_refl q⟩
      | some m =>
        simp only
        by_cases hc : bytesCmp q m = .gt
        · rw [if_pos hc]; exact ⟨q, q, hcut, rfl, lexLe_refl q⟩
        · rw [if_neg hc]; exact ⟨q, m, hcut, rfl, bytesCmp_gt hc⟩
  · intro w hw hl
    rcases List.mem_append.1 hw with hw | hw
    · exact hfl (hi.long w hw hl)
    · rw [List.mem_singleton] at hw
      subst hw
      exact hlong hl
  · intro m hm
    simp only at hm
    have hnew : m = q → ∃ w ∈ seen ++ [v], cutTo trunc w = some m := by
      intro e
      rw [e]
      exact ⟨v, by simp, hcut⟩
    cases mx with
    | none => cases hm; exact hnew rfl
    | some m0 =>
      simp only at hm
      split at hm
      · cases hm; exact hnew rfl
      · cases hm
        obtain ⟨w, hw, h⟩ := hi.mem m rfl
        exact ⟨w, List.mem_append_left _ hw, h⟩

theorem bytesArray_inv {trunc : List Nat → Nat → Option (List Nat)} (a : List (Option (List Nat))) :
    ∀ {seen : List (List Nat)} {s s' : Option (List Nat) × Option (List Nat) × Bool}, BInv trunc seen s →
    bytesArray trunc s a = some s' → BInv trunc (seen ++ a.filterMap id) s' := by
  induction a with
  | nil => intro seen s s' hi h; cases h; simpa using hi
  | cons x a ih =>
    intro seen s s' hi h
    cases x with
    | none => exact ih hi h
    | some v =>
      unfold bytesArray at h
      split at h
      · exact nomatch h
      · rename_i s1 hs1
        have := ih (bytesStep_inv hi hs1) h
        simpa using this

theorem bytesLoop_inv {trunc : List Nat → Nat → Option (List Nat)} (arrays : List (List (Option (List Nat)))) :
    ∀ {seen : List (List Nat)} {s : Option (List Nat) × Option (List Nat) × Bool} {n : Nat}
      {r : (Option (List Nat) × Option (List Nat) × Bool) × Nat}, BInv trunc seen s →
    bytesLoop trunc (s, n) arrays = some r → BInv trunc (seen ++ valsOf arrays) r.1 ∧ r.2 = n + nullCount arrays.flatten := by
  induction arrays with
  | nil => intro seen s n r hi h; cases h; exact ⟨by simpa [valsOf] using hi, by simp [nullCount]⟩
  | cons a as ih =>
    intro seen s n r hi h
    unfold bytesLoop at h
    simp only at h
    rw [valsOf_cons, List.flatten_cons, nullCount_append, ← List.append_assoc, ← Nat.add_assoc]
    by_cases hn : nullCount a = a.length
    · rw [if_pos hn] at h
      rw [nullCount_all hn, List.append_nil]
      exact ih hi h
    · rw [if_neg hn] at h
      split at h
      · exact nomatch h
      · rename_i s1 hs1
        exact ih (bytesArray_inv a hi hs1) h

theorem bytesStep_total {trunc : List Nat → Nat → Option (List Nat)} {v : List Nat} (hv : (cutTo trunc v).isSome = true)
    (s : Option (List Nat) × Option (List Nat) × Bool) : ∃ s', bytesStep trunc s v = some s' := by
  unfold cutTo at hv
  unfold bytesStep
  by_cases hl : v.length > prefixLen
  · rw [if_pos hl] at hv
    obtain ⟨q, hq⟩ := Option.isSome_iff_exists.1 hv
    simp only [if_pos hl, hq, Option.map_some]
    exact ⟨_, rfl⟩
  · simp only [if_neg hl, Option.map_some]
    exact ⟨_, rfl⟩

theorem bytesArray_total {trunc : List Nat → Nat → Option (List Nat)} (a : List (Option (List Nat)))
    (h : ∀ v, some v ∈ a → (cutTo trunc v).isSome = true) : ∀ s, ∃ s', bytesArray trunc s a = some s' := by
  induction a with
  | nil => intro s; exact ⟨s, rfl⟩
  | cons x a ih =>
    intro s
    cases x with
    | none => exact ih (fun v hv => h v (List.mem_cons_of_mem _ hv)) s
    | some v =>
      obtain ⟨s1, hs1⟩ := bytesStep_total (h v List.mem_cons_self) s
      unfold bytesArray
      rw [hs1]
      exact ih (fun v hv => h v (List.mem_cons_of_mem _ hv)) s1

theorem bytesLoop_total {trunc : List Nat → Nat → Option (List Nat)} (arrays : List (List (Option (List Nat))))
    (h : ∀ v ∈ valsOf arrays, (cutTo trunc v).isSome = true) : ∀ s n, ∃ r, bytesLoop trunc (s, n) arrays = some r := by
  induction arrays with
  | nil => intro s n; exact ⟨_, rfl⟩
  | cons a as ih =>
    intro s n
    rw [valsOf_cons] at h
    have h2 := ih (fun v hv => h v (List.mem_append_right _ hv))
    unfold bytesLoop
    simp only
    by_cases hn : nullCount a = a.length
    · rw [if_pos hn]; exact h2 _ _
    · rw [if_neg hn]
      obtain ⟨s1, hs1⟩ := bytesArray_total a (fun v hv => h v (List.mem_append_left _ (List.mem_filterMap.2 ⟨_, hv, rfl⟩))) s
      rw [hs1]
      exact h2 _ _

/-- The statistics of strings: the lower bound always holds; the upper bound holds if values cut are cut to the same length. -/
theorem bytesStats_ok {trunc : List Nat → Nat → Option (List Nat)} {incr : List Nat → Option (List Nat)}
    (hp : ∀ v q, trunc v prefixLen = some q → q <+: v) (hinc : ∀ t u, incr t = some u → Beyond t u)
    (arrays : List (List (Option (List Nat)))) (ht : ∀ v ∈ valsOf arrays, (cutTo trunc v).isSome = true) :
    ∃ mn mx, bytesStats trunc incr arrays = some ⟨nullCount arrays.flatten, mn.map .bytes, mx.map .bytes⟩ ∧
      (∀ v ∈ valsOf arrays, ∀ m, mn = some m → LexLe m v) ∧
      ((∀ v ∈ valsOf arrays, v.length > prefixLen → ∀ q, trunc v prefixLen = some q → q.length = prefixLen) →
        (∀ v q, v.length > prefixLen → trunc v prefixLen = some q → q.length ≤ prefixLen) →
        ∀ v ∈ valsOf arrays, ∀ m, mx = some m → LexLe v m) := by
  obtain ⟨r, hr⟩ := bytesLoop_total arrays ht (none, none, false) 0
  have hinit : BInv trunc [] (none, none, false) :=
    ⟨(fun _ h => nomatch h), (fun _ h => nomatch h), (fun _ h => nomatch h), (fun _ h => nomatch h)⟩
  obtain ⟨hi, hn⟩ := bytesLoop_inv arrays hinit hr
  rw [List.nil_append] at hi
  rw [Nat.zero_add] at hn
  have hcp : ∀ v q, cutTo trunc v = some q → q <+: v := by
    intro v q h
    unfold cutTo at h
    split at h
    · exact hp v q h
    · cases h; exact List.prefix_rfl
  refine ⟨r.1.1, if r.1.2.2 then r.1.2.1.bind incr else r.1.2.1, ?_, ?_, ?_⟩
  · unfold bytesStats
    rw [hr, Option.map_some, hn]
  · intro v hv m hm
    obtain ⟨q, m', h1, h2, h3⟩ := hi.lo v hv
    rw [hm] at h2
    cases h2
    obtain ⟨t, ht⟩ := hcp v q h1
    rw [← ht]
    exact lexLe_trans h3 (lexLe_append q t)
  · intro hfull hle v hv m hm
    obtain ⟨q, m', h1, h2, h3⟩ := hi.hi v hv
    by_cases hf : r.1.2.2 = true
    · rw [if_pos hf, h2, Option.bind_some] at hm
      have hb := hinc _ _ hm
      have hm'm : LexLe m' m := by have := hb []; rwa [List.append_nil] at this
      by_cases hl : v.length > prefixLen
      · have hq : trunc v prefixLen = some q := by
          unfold cutTo at h1; rwa [if_pos hl] at h1
        have hql := hfull v hv hl q hq
        obtain ⟨t, ht⟩ := hp v q hq
        by_cases hpre : q <+: m'
        · -- the bound is no longer than the prefix
          have hml : m'.length ≤ prefixLen := by
            obtain ⟨w, _, hw⟩ := hi.mem m' h2
            unfold cutTo at hw
            split at hw
            · rename_i hwl; exact hle w m' hwl hw
            · rename_i hwl; cases hw; omega
          have hqm : q = m' := hpre.eq_of_length_le (by omega)
          rw [← ht, hqm]
          exact hb t
        · rw [← ht]
          exact lexLe_trans (lexLe_extend h3 hpre t) hm'm
      · have hq : v = q := by
          unfold cutTo at h1; rw [if_neg hl] at h1; cases h1; rfl
        rw [hq]
        exact lexLe_trans h3 hm'm
    · rw [if_neg hf, h2] at hm
      cases hm
      have hl : ¬ v.length > prefixLen := fun h => hf (hi.long v hv h)
      have hq : v = q := by
        unfold cutTo at h1; rw [if_neg hl] at h1; cases h1; rfl
      rw [hq]
      exact h3

end Verif.Stats
