import Verif.Lanes.Model

/-! # Lemmas about chunks and ranges -/

namespace Verif.Lanes

/-- Rows `a` up to `b`. -/
def part {α : Type} (xs : List α) (a b : Nat) : List α := (xs.drop a).take (b - a)

/-- The rows of some ranges. -/
def rowsOf {α : Type} (xs : List α) (ranges : List Range) : List α := ranges.flatMap (fun r => part xs r.1 r.2)

theorem part_append {α : Type} (xs : List α) (a b c : Nat) (h1 : a ≤ b) (h2 : b ≤ c) : part xs a b ++ part xs b c = part xs a c := by
  unfold part
  rw [show c - a = (b - a) + (c - b) by omega, List.take_add, List.drop_drop, show a + (b - a) = b by omega]

/-- Ranges of one group: each starts in the chunk in which the one before ends, which is not at the end of the chunk. -/
def Chain : Range → List Range → Prop
  | r, [] => r.1 < r.2
  | r, r' :: rs => r.1 < r.2 ∧ r'.1 / 1024 = (r.2 - 1) / 1024 ∧ r.2 % 1024 ≠ 0 ∧ Chain r' rs

/-- Where the last range ends. -/
def lastEnd : Range → List Range → Nat
  | r, [] => r.2
  | _, r' :: rs => lastEnd r' rs

theorem chain_lt : ∀ (rs : List Range) (r : Range), Chain r rs → r.1 < r.2 := by
  intro rs
  cases rs with
  | nil => exact fun r h => h
  | cons r' rs => exact fun r h => h.1

theorem le_lastEnd : ∀ (rs : List Range) (r : Range), Chain r rs → (r.2 - 1) / 1024 ≤ (lastEnd r rs - 1) / 1024 := by
  intro rs
  induction rs with
  | nil => intro r _; exact Nat.le_refl _
  | cons r' rs ih =>
    intro r h
    have h1 := ih r' h.2.2.2
    have h2 := chain_lt rs r' h.2.2.2
    have h3 := h.2.1
    simp only [lastEnd]
    omega

theorem chain_snoc : ∀ (rs : List Range) (r n : Range), Chain r rs → n.1 / 1024 = (lastEnd r rs - 1) / 1024 → lastEnd r rs % 1024 ≠ 0 → n.1 < n.2 → Chain r (rs ++ [n]) := by
  intro rs
  induction rs with
  | nil => intro r n h h1 h2 h3; exact ⟨h, h1, h2, h3⟩
  | cons r' rs ih => intro r n h h1 h2 h3; exact ⟨h.1, h.2.1, h.2.2.1, ih r' n h.2.2.2 h1 h2 h3⟩

theorem lastEnd_snoc : ∀ (rs : List Range) (r n : Range), lastEnd r (rs ++ [n]) = n.2 := by
  intro rs
  induction rs with
  | nil => intro r n; rfl
  | cons r' rs ih => intro r n; exact ih r' n

/-- What one chunk gives. -/
theorem takeChunk_spec {α : Type} (xs : List α) (j : Nat) : ∀ (fuel : Nat) (rs : List Range) (r : Range) (curr : Nat), rs.length < fuel → curr / 1024 = j → curr < r.2 →
    Chain (curr, r.2) rs →
    ∃ out curr' rs', takeChunk (part xs (1024 * j) (1024 * (j + 1))) fuel curr (r :: rs) = some (out, curr', rs') ∧
      ((rs' = [] ∧ out = part xs curr r.2 ++ rowsOf xs rs ∧ (lastEnd r rs - 1) / 1024 = j) ∨
        ∃ r' rs'', rs' = r' :: rs'' ∧ curr' = 1024 * (j + 1) ∧ ((curr' < r'.2 ∧ Chain (curr', r'.2) rs'') ∨ (curr' = r'.2 ∧ rs'' = [])) ∧
          lastEnd r' rs'' = lastEnd r rs ∧ out ++ (part xs curr' r'.2 ++ rowsOf xs rs'') = part xs curr r.2 ++ rowsOf xs rs) := by
  intro fuel
  induction fuel with
  | zero => intro rs r curr h; exact absurd h (Nat.not_lt_zero _)
  | succ fuel ih =>
    intro rs r curr hf hj hlt hc
    have hdrop : ∀ n, n ≤ 1024 - curr % 1024 → ((part xs (1024 * j) (1024 * (j + 1))).drop (curr % 1024)).take n = part xs curr (curr + n) := by
      intro n hn
      unfold part
      rw [List.drop_take, List.drop_drop, List.take_take]
      congr 1
      · omega
      · congr 1
        omega
    unfold takeChunk
    by_cases h1 : curr + (1024 - curr % 1024) ≤ r.2
    · rw [if_pos h1]
      have hall : (part xs (1024 * j) (1024 * (j + 1))).drop (curr % 1024) = part xs curr (1024 * (j + 1)) := by
        have := hdrop (1024 - curr % 1024) (Nat.le_refl _)
        rw [show curr + (1024 - curr % 1024) = 1024 * (j + 1) by omega] at this
        rw [← this, List.take_of_length_le]
        unfold part
        rw [List.length_drop, List.length_take]
        omega
      refine ⟨_, _, _, rfl, Or.inr ⟨r, rs, rfl, by omega, ?_, rfl, ?_⟩⟩
      · by_cases he : curr + (1024 - curr % 1024) = r.2
        · refine Or.inr ⟨he, ?_⟩
          cases rs with
          | nil => rfl
          | cons r' rs =>
            have h2 := hc.2.2.1
            simp only at h2
            omega
        · refine Or.inl ⟨by omega, ?_⟩
          cases rs with
          | nil =>
            show curr + (1024 - curr % 1024) < r.2
            omega
          | cons r' rs => exact ⟨by show curr + (1024 - curr % 1024) < r.2; omega, hc.2.1, hc.2.2.1, hc.2.2.2⟩
      · rw [hall, show curr + (1024 - curr % 1024) = 1024 * (j + 1) by omega, ← List.append_assoc, part_append xs curr _ r.2 (by omega) (by omega)]
    · rw [if_neg h1]
      have hn : min (r.2 - curr) (1024 - curr % 1024) = r.2 - curr := by omega
      simp only [hn]
      rw [if_pos (by omega), hdrop _ (by omega), show curr + (r.2 - curr) = r.2 by omega]
      cases rs with
      | nil =>
        refine ⟨_, _, _, rfl, Or.inl ⟨rfl, by simp [rowsOf], ?_⟩⟩
        simp only [lastEnd]
        omega
      | cons r' rs =>
        obtain ⟨_, h2, h3, h4⟩ := hc
        simp only at h2 h3
        have h5 := chain_lt rs r' h4
        simp only [List.length_cons] at hf
        obtain ⟨out, curr', rs', h6, h7⟩ := ih rs r' r'.1 (by omega) (by omega) h5 (by cases rs <;> exact h4)
        have hrows : rowsOf xs (r' :: rs) = part xs r'.1 r'.2 ++ rowsOf xs rs := by simp [rowsOf]
        simp only
        rw [h6]
        refine ⟨_, _, _, rfl, ?_⟩
        rcases h7 with ⟨h8, h9, h10⟩ | ⟨r'', rs'', h8, h9, h10, h11, h12⟩
        · exact Or.inl ⟨h8, by simp only [h9, hrows], h10⟩
        · exact Or.inr ⟨r'', rs'', h8, h9, h10, h11, by simp only [List.append_assoc, h12, hrows]⟩

/-- What the chunks of a group give. -/
theorem takeChunks_spec {α : Type} (unpack : List Nat → Option (List α)) (page : List (List Nat)) (xs : List α)
    (hpage : ∀ (j : Nat) (p : List Nat), page[j]? = some p → unpack p = some (part xs (1024 * j) (1024 * (j + 1)))) :
    ∀ (n : Nat) (rs : List Range) (r : Range) (curr : Nat), curr < r.2 → Chain (curr, r.2) rs → curr / 1024 + n = (lastEnd r rs - 1) / 1024 + 1 →
      curr / 1024 + n ≤ page.length →
      takeChunks unpack ((page.drop (curr / 1024)).take n) curr (r :: rs) = some (part xs curr r.2 ++ rowsOf xs rs) := by
  intro n
  induction n with
  | zero =>
    intro rs r curr hlt hc hn _
    have h1 : (r.2 - 1) / 1024 ≤ (lastEnd r rs - 1) / 1024 := by
      have := le_lastEnd rs (curr, r.2) hc
      cases rs with
      | nil => exact Nat.le_refl _
      | cons r' rs => exact this
    omega
  | succ n ih =>
    intro rs r curr hlt hc hn hl
    have hin : curr / 1024 < page.length := by omega
    rw [List.drop_eq_getElem_cons hin, List.take_succ_cons]
    unfold takeChunks
    rw [hpage (curr / 1024) _ (List.getElem?_eq_getElem hin)]
    obtain ⟨out, curr', rs', h1, h2⟩ := takeChunk_spec xs (curr / 1024) ((r :: rs).length + 1) rs r curr (by simp only [List.length_cons]; omega) rfl hlt hc
    simp only [h1]
    rcases h2 with ⟨h3, h4, h5⟩ | ⟨r', rs'', h3, h4, h5, h6, h7⟩
    · have hn0 : n = 0 := by omega
      rw [hn0, List.take_zero]
      simp only [takeChunks, Option.map_some, List.append_nil, h4]
    · rcases h5 with ⟨h5, h8⟩ | ⟨h5, h8⟩
      · have h9 : curr' / 1024 = curr / 1024 + 1 := by omega
        have := ih rs'' r' curr' h5 h8 (by rw [h6]; omega) (by omega)
        rw [h9] at this
        rw [h3, this, Option.map_some, h7]
      · have hle : lastEnd r' rs'' = r'.2 := by rw [h8]; rfl
        have hn0 : n = 0 := by omega
        have h10 : part xs curr' r'.2 ++ rowsOf xs rs'' = [] := by
          rw [h8, ← h5]
          simp [part, rowsOf]
        rw [h10, List.append_nil] at h7
        rw [hn0, List.take_zero]
        simp only [takeChunks, Option.map_some, List.append_nil, h7]

/-- What all groups give. -/
theorem scheduleFrom_spec {α : Type} (unpack : List Nat → Option (List α)) (page : List (List Nat)) (xs : List α)
    (hpage : ∀ (j : Nat) (p : List Nat), page[j]? = some p → unpack p = some (part xs (1024 * j) (1024 * (j + 1)))) :
    ∀ (rest : List Range) (r : Range) (rs : List Range) (prev : Range), Chain r rs → lastEnd r rs = prev.2 → prev.2 ≤ 1024 * page.length → 0 < prev.2 →
      (∀ q ∈ rest, q.1 < q.2 ∧ q.2 ≤ 1024 * page.length) →
      (∀ before q q' after, prev :: rest = before ++ q :: q' :: after → q'.1 / 1024 = (q.2 - 1) / 1024 → q.2 % 1024 ≠ 0) →
      takeGroups unpack page (scheduleFrom ⟨r.1 / 1024, (prev.2 - 1) / 1024 + 1, r :: rs⟩ prev rest) = some (rowsOf xs (r :: rs ++ rest)) := by
  have hone : ∀ (r : Range) (rs : List Range) (prev : Range), Chain r rs → lastEnd r rs = prev.2 → prev.2 ≤ 1024 * page.length → 0 < prev.2 →
      takeGroup unpack page ⟨r.1 / 1024, (prev.2 - 1) / 1024 + 1, r :: rs⟩ = some (rowsOf xs (r :: rs)) := by
    intro r rs prev hc hl hb h0
    have h1 := chain_lt rs r hc
    have h2 := le_lastEnd rs r hc
    rw [hl] at h2
    unfold takeGroup
    simp only
    rw [takeChunks_spec unpack page xs hpage ((prev.2 - 1) / 1024 + 1 - r.1 / 1024) rs r r.1 h1 (by cases rs <;> exact hc) (by rw [hl]; omega) (by omega)]
    simp [rowsOf]
  intro rest
  induction rest with
  | nil =>
    intro r rs prev hc hl hb h0 _ _
    unfold scheduleFrom
    simp only [takeGroups, hone r rs prev hc hl hb h0, List.append_nil]
  | cons q rest ih =>
    intro r rs prev hc hl hb h0 hq hpair
    have hq1 := hq q List.mem_cons_self
    have hq2 : ∀ q' ∈ rest, q'.1 < q'.2 ∧ q'.2 ≤ 1024 * page.length := fun q' h => hq q' (List.mem_cons_of_mem _ h)
    have hp2 : ∀ before x x' after, q :: rest = before ++ x :: x' :: after → x'.1 / 1024 = (x.2 - 1) / 1024 → x.2 % 1024 ≠ 0 := by
      intro before x x' after h
      exact hpair (prev :: before) x x' after (by rw [h]; rfl)
    unfold scheduleFrom
    by_cases hs : q.1 / 1024 = (prev.2 - 1) / 1024
    · rw [if_pos hs]
      have := ih r (rs ++ [q]) q (chain_snoc rs r q hc (by rw [hl]; exact hs) (by rw [hl]; exact hpair [] prev q rest rfl hs) hq1.1) (lastEnd_snoc rs r q) hq1.2 (by omega) hq2 hp2
      simp only [List.cons_append, List.append_assoc, List.nil_append] at this ⊢
      exact this
    · rw [if_neg hs]
      have := ih q [] q hq1.1 rfl hq1.2 (by omega) hq2 hp2
      unfold takeGroups
      rw [hone r rs prev hc hl hb h0]
      unfold groupOf
      rw [this]
      simp [rowsOf]

end Verif.Lanes
