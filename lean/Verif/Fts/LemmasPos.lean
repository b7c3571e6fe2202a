import Verif.Fts.LemmasNext
/-! # Full text search: the positions of a phrase -/
namespace Verif.Fts

theorem posScan_none : ∀ {its : List PosIt} {mx : Option Int} {same : Bool}, posScan its mx same = none → ∃ it ∈ its, it.rest = [] := by
  intro its
  induction its with
  | nil => intro mx same h; cases h
  | cons a its ih =>
    intro mx same h
    rw [posScan] at h
    cases hp : a.position with
    | none => exact ⟨a, by simp, by simpa [PosIt.position] using hp⟩
    | some p =>
      rw [hp] at h
      cases mx with
      | none =>
        obtain ⟨it, hit, hr⟩ := ih h
        exact ⟨it, by simp [hit], hr⟩
      | some m =>
        obtain ⟨it, hit, hr⟩ := ih h
        exact ⟨it, by simp [hit], hr⟩

/-- The scan from a first maximum. -/
theorem posScan_some : ∀ {its : List PosIt} {m : Int} {same : Bool} {mx : Option Int} {s : Bool},
    posScan its (some m) same = some (mx, s) →
    ∃ M, mx = some M ∧ m ≤ M ∧ (∀ it ∈ its, ∃ p, it.position = some p ∧ p ≤ M) ∧ (M = m ∨ ∃ it ∈ its, it.position = some M) ∧
      (s = true → same = true ∧ M = m ∧ ∀ it ∈ its, it.position = some M) ∧
      (s = false → same = false ∨ m < M ∨ ∃ it ∈ its, ∃ p, it.position = some p ∧ p < M) := by
  intro its
  induction its with
  | nil =>
    intro m same mx s h
    simp only [posScan, Option.some.injEq, Prod.mk.injEq] at h
    obtain ⟨rfl, rfl⟩ := h
    exact ⟨m, rfl, Int.le_refl _, fun _ h => (by cases h), Or.inl rfl, fun h => ⟨h, rfl, fun _ h => (by cases h)⟩, fun h => Or.inl h⟩
  | cons a its ih =>
    intro m same mx s h
    rw [posScan] at h
    cases hp : a.position with
    | none => rw [hp] at h; cases h
    | some p =>
      rw [hp] at h
      simp only at h
      obtain ⟨M, h1, h2, h3, h4, h5, h6⟩ := ih h
      have hm : m ≤ (if m < p then p else m) := by split <;> omega
      have hpm : p ≤ (if m < p then p else m) := by split <;> omega
      refine ⟨M, h1, by omega, ?_, ?_, ?_, ?_⟩
      · intro it hit
        rcases List.mem_cons.1 hit with rfl | hit
        · exact ⟨p, hp, by omega⟩
        · exact h3 it hit
      · rcases h4 with h4 | ⟨it, hit, hM⟩
        · by_cases hlt : m < p
          · rw [if_pos hlt] at h4
            exact Or.inr ⟨a, by simp, by rw [h4]; exact hp⟩
          · rw [if_neg hlt] at h4
            exact Or.inl h4
        · exact Or.inr ⟨it, by simp [hit], hM⟩
      · intro hs
        obtain ⟨s1, s2, s3⟩ := h5 hs
        simp only [Bool.and_eq_true, decide_eq_true_eq] at s1
        obtain ⟨s1, rfl⟩ := s1
        rw [if_neg (by omega)] at s2
        refine ⟨s1, s2, ?_⟩
        intro it hit
        rcases List.mem_cons.1 hit with rfl | hit
        · rw [s2]; exact hp
        · exact s3 it hit
      · intro hs
        rcases h6 hs with h | h | ⟨it, hit, q, hq, hlt⟩
        · rcases Bool.and_eq_false_iff.1 h with h | h
          · exact Or.inl h
          · have hne : p ≠ m := by simpa using h
            by_cases hlt : m < p
            · rw [if_pos hlt] at h2
              exact Or.inr (Or.inl (by omega))
            · rw [if_neg hlt] at h2
              exact Or.inr (Or.inr ⟨a, by simp, p, hp, by omega⟩)
        · exact Or.inr (Or.inl (by omega))
        · exact Or.inr (Or.inr ⟨it, by simp [hit], q, hq, hlt⟩)

/-- The scan of at least one iterator. -/
theorem posScan_cons {a : PosIt} {its : List PosIt} {mx : Option Int} {s : Bool} (h : posScan (a :: its) none true = some (mx, s)) :
    ∃ M, mx = some M ∧ (∀ it ∈ a :: its, ∃ p, it.position = some p ∧ p ≤ M) ∧
      (s = true → ∀ it ∈ a :: its, it.position = some M) ∧
      (s = false → ∃ it ∈ a :: its, ∃ p, it.position = some p ∧ p < M) := by
  rw [posScan] at h
  cases hp : a.position with
  | none => rw [hp] at h; cases h
  | some p =>
    rw [hp] at h
    simp only at h
    obtain ⟨M, h1, h2, h3, _, h5, h6⟩ := posScan_some h
    refine ⟨M, h1, ?_, ?_, ?_⟩
    · intro it hit
      rcases List.mem_cons.1 hit with rfl | hit
      · exact ⟨p, hp, h2⟩
      · exact h3 it hit
    · intro hs it hit
      obtain ⟨_, s2, s3⟩ := h5 hs
      rcases List.mem_cons.1 hit with rfl | hit
      · rw [s2]; exact hp
      · exact s3 it hit
    · intro hs
      rcases h6 hs with h | h | ⟨it, hit, q, hq, hlt⟩
      · cases h
      · exact ⟨a, by simp, p, hp, h⟩
      · exact ⟨it, by simp [hit], q, hq, hlt⟩

/-- The iterator is at a place of its sorted positions. -/
def PosIt.ok (it : PosIt) : Prop := it.all.Pairwise (· < ·) ∧ ∃ pre, it.all = pre ++ it.rest

theorem pos_head_le {l : List Int} {a x : Int} (hs : l.Pairwise (· < ·)) (h : l.head? = some a) (hx : x ∈ l) : a ≤ x := by
  cases l with
  | nil => cases hx
  | cons b l =>
    simp only [List.head?_cons, Option.some.injEq] at h
    subst h
    rcases List.mem_cons.1 hx with rfl | hx
    · exact Int.le_refl _
    · exact Int.le_of_lt ((List.pairwise_cons.1 hs).1 x hx)

/-- From a place that is not past, a jump over all positions is a jump from there. -/
theorem PosIt.next_rest {it : PosIt} (h : it.ok) {p least : Int} (hp : it.position = some p) (hl : p ≤ least) :
    (it.next least).rest = it.rest.dropWhile (fun x => decide (x < least + it.q)) := by
  obtain ⟨hs, pre, hpre⟩ := h
  show it.all.dropWhile _ = _
  cases hr : it.rest with
  | nil => simp [PosIt.position, hr] at hp
  | cons a l =>
    simp only [PosIt.position, hr, List.head?_cons, Option.map_some, Option.some.injEq] at hp
    rw [hr] at hpre
    rw [hpre, List.dropWhile_append_of_pos]
    intro x hx
    rw [hpre, List.pairwise_append] at hs
    have := hs.2.2 x hx a (by simp)
    simp
    omega

theorem PosIt.ok_next {it : PosIt} (h : it.ok) (least : Int) : (it.next least).ok :=
  ⟨h.1, suffix_dropWhile _ _⟩

/-- A base where all have a position. -/
def common (its : List PosIt) (b : Int) : Prop := ∀ it ∈ its, b + it.q ∈ it.all

theorem posLoop_spec : ∀ (n : Nat) (its : List PosIt), (∀ it ∈ its, it.ok) → (∀ b, common its b → ∀ it ∈ its, b + it.q ∈ it.rest) →
    posRemaining its < n → ∃ r, posLoop n its = some r ∧ (r = true ↔ ∃ b, common its b) := by
  intro n
  induction n with
  | zero => intro its _ _ h; omega
  | succ n ih =>
    intro its hok hun hn
    rw [posLoop]
    cases its with
    | nil => exact ⟨true, rfl, by simp only [true_iff]; exact ⟨0, fun _ h => by cases h⟩⟩
    | cons a its =>
      cases hsc : posScan (a :: its) none true with
      | none =>
        obtain ⟨it, hit, hr⟩ := posScan_none hsc
        refine ⟨false, rfl, by simp only [Bool.false_eq_true, false_iff]; rintro ⟨b, hb⟩; have := hun b hb it hit; rw [hr] at this; cases this⟩
      | some r =>
        obtain ⟨mx, s⟩ := r
        obtain ⟨M, hM, h1, h2, h3⟩ := posScan_cons hsc
        cases s with
        | true =>
          refine ⟨true, rfl, ⟨fun _ => ⟨M, fun it hit => ?_⟩, fun _ => rfl⟩⟩
          have := h2 rfl it hit
          cases hr : it.rest with
          | nil => simp [PosIt.position, hr] at this
          | cons x l =>
            simp only [PosIt.position, hr, List.head?_cons, Option.map_some, Option.some.injEq] at this
            obtain ⟨pre, hpre⟩ := (hok it hit).2
            rw [hpre, hr]
            have e : M + it.q = x := by omega
            rw [e]
            simp
        | false =>
          simp only [hM, Option.getD_some, Bool.false_eq_true, if_false]
          have hcommon : ∀ b, common ((a :: its).map (PosIt.next M)) b ↔ common (a :: its) b := by
            intro b
            constructor
            · intro h it hit
              exact h (it.next M) (List.mem_map.2 ⟨it, hit, rfl⟩)
            · intro h it hit
              obtain ⟨it', hit', rfl⟩ := List.mem_map.1 hit
              exact h it' hit'
          suffices hnext : posRemaining ((a :: its).map (PosIt.next M)) < n ∧ (∀ it ∈ (a :: its).map (PosIt.next M), it.ok) ∧
              (∀ b, common ((a :: its).map (PosIt.next M)) b → ∀ it ∈ (a :: its).map (PosIt.next M), b + it.q ∈ it.rest) by
            obtain ⟨r, hr1, hr2⟩ := ih _ hnext.2.1 hnext.2.2 hnext.1
            exact ⟨r, hr1, hr2.trans ⟨fun ⟨b, hb⟩ => ⟨b, (hcommon b).1 hb⟩, fun ⟨b, hb⟩ => ⟨b, (hcommon b).2 hb⟩⟩⟩
          refine ⟨?_, ?_, ?_⟩
          rotate_left
          · intro it hit
            obtain ⟨it', hit', rfl⟩ := List.mem_map.1 hit
            exact PosIt.ok_next (hok it' hit') M
          · intro b hb it hit
            obtain ⟨it', hit', rfl⟩ := List.mem_map.1 hit
            have hb' := (hcommon b).1 hb
            obtain ⟨p, hp, hpM⟩ := h1 it' hit'
            rw [PosIt.next_rest (hok it' hit') hp hpM]
            refine mem_dropWhile (hun b hb' it' hit') ?_
            -- every iterator is at or before `b`
            have hMb : M ≤ b := by
              -- the largest is one of them
              have : ∃ it ∈ a :: its, it.position = some M := by
                rw [posScan] at hsc
                cases hpa : a.position with
                | none => rw [hpa] at hsc; cases hsc
                | some pa =>
                  rw [hpa] at hsc
                  obtain ⟨M', e1, _, _, e4, _, _⟩ := posScan_some hsc
                  rw [hM] at e1
                  cases e1
                  rcases e4 with e4 | ⟨it, hit, e4⟩
                  · exact ⟨a, by simp, by rw [e4]; exact hpa⟩
                  · exact ⟨it, by simp [hit], e4⟩
              obtain ⟨it, hit, hitM⟩ := this
              have hmem := hun b hb' it hit
              cases hr : it.rest with
              | nil => rw [hr] at hmem; cases hmem
              | cons x l =>
                simp only [PosIt.position, hr, List.head?_cons, Option.map_some, Option.some.injEq] at hitM
                obtain ⟨hs, pre, hpre⟩ := hok it hit
                rw [hpre, List.pairwise_append] at hs
                have := pos_head_le hs.2.1 (by rw [hr]; rfl) hmem
                omega
            show decide (b + it'.q < M + it'.q) = false
            simp
            omega
          · have hle : ∀ it ∈ a :: its, (it.next M).rest.length ≤ it.rest.length := by
              intro it hit
              obtain ⟨p, hp, hpM⟩ := h1 it hit
              rw [PosIt.next_rest (hok it hit) hp hpM]
              exact length_dropWhile_le _ _
            obtain ⟨it, hit, p, hp, hlt⟩ := h3 rfl
            have hstrict : (it.next M).rest.length < it.rest.length := by
              rw [PosIt.next_rest (hok it hit) hp (by omega)]
              cases hr : it.rest with
              | nil => simp [PosIt.position, hr] at hp
              | cons x l =>
                simp only [PosIt.position, hr, List.head?_cons, Option.map_some, Option.some.injEq] at hp
                rw [List.dropWhile_cons, if_pos (by simp; omega)]
                have := length_dropWhile_le (fun y => decide (y < M + it.q)) l
                simp only [List.length_cons]
                omega
            have hsum : ∀ (l : List PosIt), (∀ it ∈ l, (it.next M).rest.length ≤ it.rest.length) → it ∈ l →
                posRemaining (l.map (PosIt.next M)) < posRemaining l := by
              intro l
              induction l with
              | nil => intro _ h; cases h
              | cons y l ihl =>
                intro hall hmem
                have hrest : posRemaining (l.map (PosIt.next M)) ≤ posRemaining l := by
                  unfold posRemaining
                  rw [List.map_map]
                  exact sum_le_sum fun x hx => hall x (by simp [hx])
                simp only [posRemaining, List.map_cons, List.sum_cons] at hrest ⊢
                have hy := hall y (by simp)
                rcases List.mem_cons.1 hmem with rfl | hmem
                · omega
                · have := ihl (fun x hx => hall x (by simp [hx])) hmem
                  simp only [posRemaining] at this
                  omega
            have := hsum (a :: its) hle hit
            omega

theorem row_unique {l : List Entry} (hs : (l.map Entry.row).Pairwise (· < ·)) {a b : Entry} (ha : a ∈ l) (hb : b ∈ l) (h : a.row = b.row) :
    a = b := by
  induction l with
  | nil => cases ha
  | cons x l ih =>
    rw [List.map_cons, List.pairwise_cons] at hs
    rcases List.mem_cons.1 ha with rfl | ha' <;> rcases List.mem_cons.1 hb with rfl | hb'
    · rfl
    · have := hs.1 _ (List.mem_map.2 ⟨b, hb', rfl⟩)
      omega
    · have := hs.1 _ (List.mem_map.2 ⟨a, ha', rfl⟩)
      omega
    · exact ih hs.2 ha' hb'

theorem find_of_mem {l : List Entry} (hs : (l.map Entry.row).Pairwise (· < ·)) {e : Entry} {d : Nat} (he : e ∈ l) (hd : e.row = d) :
    l.find? (fun x => x.row == d) = some e := by
  cases hf : l.find? (fun x => x.row == d) with
  | none =>
    have := List.find?_eq_none.1 hf e he
    simp [hd] at this
  | some e' =>
    obtain ⟨h1, h2⟩ := find_row hf
    rw [row_unique hs he h1 (by omega)]

/-- The check of the positions, when every iterator is at the document. -/
theorem checkPositions_spec {its : List It} {d : Nat} (hs : ∀ it ∈ its, (it.p.list.map Entry.row).Pairwise (· < ·))
    (hpos : ∀ it ∈ its, ∀ e ∈ it.p.list, e.pos.Pairwise (· < ·))
    (hat : ∀ it ∈ its, ∃ e ∈ it.p.list, it.doc = some e ∧ e.row = d) :
    ∃ r, checkPositions its = some r ∧ (r = true ↔ ∃ b, phraseAt (its.map It.p) d b) := by
  have hpits : ∀ it ∈ its, ∃ e ∈ it.p.list, e.row = d ∧ it.p.positions ((it.doc.map Entry.row).getD 0) = e.pos := by
    intro it hit
    obtain ⟨e, he, hdoc, hd⟩ := hat it hit
    refine ⟨e, he, hd, ?_⟩
    rw [hdoc]
    simp only [Option.map_some, Option.getD_some, Posting.positions]
    rw [find_of_mem (hs it hit) he rfl]
    rfl
  obtain ⟨r, h1, h2⟩ := posLoop_spec _ (its.map (fun it =>
    (⟨it.p.positions ((it.doc.map Entry.row).getD 0), it.p.qpos, it.p.positions ((it.doc.map Entry.row).getD 0)⟩ : PosIt))) (by
      intro pit hp
      obtain ⟨it, hit, rfl⟩ := List.mem_map.1 hp
      obtain ⟨e, he, hd, hpe⟩ := hpits it hit
      exact ⟨by simp only; rw [hpe]; exact hpos it hit e he, [], rfl⟩) (by
      intro b hb pit hp
      obtain ⟨it, hit, rfl⟩ := List.mem_map.1 hp
      exact hb _ (List.mem_map.2 ⟨it, hit, rfl⟩)) (Nat.lt_succ_self _)
  refine ⟨r, h1, h2.trans ?_⟩
  constructor
  · rintro ⟨b, hb⟩
    refine ⟨b, ?_⟩
    intro p hp
    obtain ⟨it, hit, rfl⟩ := List.mem_map.1 hp
    obtain ⟨e, he, hd, hpe⟩ := hpits it hit
    have := hb _ (List.mem_map.2 ⟨it, hit, rfl⟩)
    simp only [hpe] at this
    exact ⟨e, he, hd, this⟩
  · rintro ⟨b, hb⟩
    refine ⟨b, ?_⟩
    intro pit hp
    obtain ⟨it, hit, rfl⟩ := List.mem_map.1 hp
    obtain ⟨e, he, hd, hpe⟩ := hpits it hit
    obtain ⟨e', he', hd', hm⟩ := hb it.p (List.mem_map.2 ⟨it, hit, rfl⟩)
    have := row_unique (hs it hit) he he' (by omega)
    subst this
    simp only [hpe]
    exact hm

end Verif.Fts
