import Verif.ListCol.LemmasWrite
/-! Columns of any depth, takes and the loaded count. -/
namespace Verif.ListCol

variable {α β : Type}

/-- A value: of a flat column or of a list column. -/
inductive Val (P : Type) where
  | prim (p : P)
  | list (l : Option (List (Val P)))

/-- A column as it is in a file: pages of values, or pages of offsets and a column of items. -/
inductive Col (P : Type) where
  | flat (pages : List (List P))
  | list (pages : List (List Nat × Info)) (items : Col P)

/-- Reading ranges of a column. -/
def Col.read {P : Type} : Col P → List Rng → Option (List (Val P))
  | .flat pages, rs => (readPages pages rs).map (fun xs => xs.map Val.prim)
  | .list pages items, rs =>
    (readLists pages items.read rs).map (fun ls => (ls.flatMap Loaded.rows).map Val.list)

/-- The column was written from these values, in any number of arrays and with pages of any size. -/
inductive Written {P : Type} : Col P → List (Val P) → Prop where
  | flat (size : List P → Nat) (pageBytes cache : Nat) (arrs : List (List P)) :
      Written (.flat (encodeFlat size pageBytes ⟨cache, [], 0⟩ arrs)) (arrs.flatten.map Val.prim)
  | list (size : Buf → Nat) (cache : Nat) (arrs : List (Arr (Val P))) (pages : List (List Nat × Info)) (items : Col P) :
      (∀ a ∈ arrs, a.Ok) → encodeStream size ⟨cache, [], 0⟩ arrs = some pages → Written items (arrs.flatMap itemsOf) →
      Written (.list pages items) ((arrs.flatMap Arr.rows).map Val.list)

theorem wanted_map (f : α → β) (xs : List α) (rs : List Rng) : wanted (xs.map f) rs = (wanted xs rs).map f := by
  unfold wanted
  rw [List.map_flatMap]
  congr 1
  funext r
  exact slice_map f xs r

theorem written_reads {P : Type} {c : Col P} {vs : List (Val P)} (h : Written c vs) : Reads c.read vs := by
  induction h with
  | flat size pageBytes cache arrs =>
    intro rs ho
    have hf : (encodeFlat size pageBytes ⟨cache, [], 0⟩ arrs).flatten = arrs.flatten := by
      rw [encodeFlat_flatten]; rfl
    rw [List.length_map] at ho
    unfold Col.read
    rw [readPages_overlap _ _ (by rw [hf]; exact ordered_overlap ho), hf, wanted_map]
    rfl
  | list size cache arrs pages items hok hp _ ih =>
    intro rs ho
    rw [List.length_map] at ho
    obtain ⟨pages', out, e1, e2, e3, -⟩ := read_written arrs hok size cache items.read ih rs ho
    rw [hp] at e1
    cases e1
    unfold Col.read
    rw [e2, Option.map_some, e3, wanted_map]

/-! ### Takes -/

/-- Each index is at least the one before; an index may come twice. -/
def Ascending : List Nat → Prop
  | a :: b :: rest => a ≤ b ∧ Ascending (b :: rest)
  | _ => True

theorem ascending_le : ∀ (a : Nat) (rest : List Nat), Ascending (a :: rest) → ∀ x ∈ rest, a ≤ x
  | _, [], _ => fun _ h => (nomatch h)
  | a, b :: rest, ⟨h1, h2⟩ => by
    intro x hx
    rcases List.mem_cons.1 hx with h | h
    · subst h; exact h1
    · exact Nat.le_trans h1 (ascending_le b rest h2 x h)

theorem ascending_tail {a : Nat} {rest : List Nat} (h : Ascending (a :: rest)) : Ascending rest := by
  cases rest with
  | nil => trivial
  | cons b rest => exact h.2

theorem take_overlap (n : Nat) : ∀ (is : List Nat), Ascending is → (∀ i ∈ is, i < n) → Overlap n (takeRanges is)
  | [], _, _ => trivial
  | i :: is, ha, hn => by
    refine ⟨by simp, hn i List.mem_cons_self, ?_, take_overlap n is (ascending_tail ha) (fun x h => hn x (List.mem_cons_of_mem _ h))⟩
    intro r' h
    obtain ⟨x, hx, rfl⟩ := List.mem_map.1 h
    have := ascending_le i is ha x hx
    simp only; omega

theorem take_ordered (n : Nat) : ∀ (is : List Nat), is.Pairwise (· < ·) → (∀ i ∈ is, i < n) → Ordered n (takeRanges is)
  | [], _, _ => trivial
  | i :: is, ha, hn => by
    rw [List.pairwise_cons] at ha
    refine ⟨by simp, hn i List.mem_cons_self, ?_, take_ordered n is ha.2 (fun x h => hn x (List.mem_cons_of_mem _ h))⟩
    intro r' h
    obtain ⟨x, hx, rfl⟩ := List.mem_map.1 h
    exact ha.1 x hx

theorem slice_one (xs : List α) (i : Nat) (h : i < xs.length) : slice xs (i, i + 1) = [xs[i]] := by
  unfold slice
  simp only [Nat.add_sub_cancel_left]
  rw [List.drop_eq_getElem_cons h]
  rfl

theorem wanted_take (xs : List α) : ∀ (is : List Nat), (∀ i ∈ is, i < xs.length) →
    some (wanted xs (takeRanges is)) = is.mapM (fun i => xs[i]?)
  | [], _ => rfl
  | i :: is, h => by
    have hi := h i List.mem_cons_self
    have := wanted_take xs is (fun x hx => h x (List.mem_cons_of_mem _ hx))
    simp only [List.mapM_cons, ← this, List.getElem?_eq_getElem hi]
    simp [wanted, takeRanges, slice_one xs i hi]

/-! ### How much is loaded -/

theorem rising_getD : ∀ (os : List Nat) (i j : Nat), Rising os → i ≤ j → j < os.length → os.getD i 0 ≤ os.getD j 0
  | [], _, _, _, _, h => by simp at h
  | x :: os, 0, 0, _, _, _ => Nat.le_refl _
  | x :: os, 0, j + 1, hr, _, hl => by
    simp only [List.length_cons, Nat.add_lt_add_iff_right] at hl
    have : os.getD j 0 = os[j] := by simp [List.getD, hl]
    simp only [List.getD_cons_zero, List.getD_cons_succ]
    rw [this]
    exact rising_ge x os hr _ (List.getElem_mem hl)
  | x :: os, i + 1, 0, _, h, _ => by omega
  | x :: os, i + 1, j + 1, hr, h, hl => by
    simp only [List.getD_cons_succ]
    refine rising_getD os i j ?_ (by omega) (by simpa using hl)
    cases os with
    | nil => trivial
    | cons y os => exact hr.2

theorem walk_end (os : List Nat) (target : Nat) (hr : Rising os) : ∀ (f pos : Nat), pos < os.length →
    os.length ≤ pos + f + 1 → os.getD pos 0 ≤ target → (∀ j, pos < j → j < os.length → target ≤ os.getD j 0) →
    walkEnd os target f pos < os.length ∧ os.getD (walkEnd os target f pos) 0 ≤ target ∧
      ∀ j, walkEnd os target f pos < j → j < os.length → target < os.getD j 0
  | 0, pos, hp, hl, hle, _ => by
    unfold walkEnd
    exact ⟨hp, hle, fun j h1 h2 => by omega⟩
  | f + 1, pos, hp, hl, hle, hj => by
    unfold walkEnd
    by_cases hc : pos < os.length - 1 ∧ os.getD (pos + 1) 0 = target
    · rw [if_pos hc]
      exact walk_end os target hr f (pos + 1) (by omega) (by omega) (by omega) (fun j h1 h2 => hj j (by omega) h2)
    · rw [if_neg hc]
      refine ⟨hp, hle, fun j h1 h2 => ?_⟩
      have h3 := hj (pos + 1) (by omega) (by omega)
      have h4 := rising_getD os (pos + 1) j hr (by omega) h2
      have h5 : os.getD (pos + 1) 0 ≠ target := fun h => hc ⟨by omega, h⟩
      omega

theorem search_end (os : List Nat) (target : Nat) (found : Nat ⊕ Nat) (hr : Rising os) (h0 : os.getD 0 0 = 0)
    (hne : os ≠ []) (hs : IsSearch os target found) :
    searchToEnd os target found < os.length ∧ os.getD (searchToEnd os target found) 0 ≤ target ∧
      ∀ j, searchToEnd os target found < j → j < os.length → target < os.getD j 0 := by
  have hpos := List.length_pos_iff.2 hne
  unfold searchToEnd
  cases found with
  | inl i =>
    obtain ⟨h1, h2⟩ := hs
    refine walk_end os target hr _ i h1 (by omega) (by omega) ?_
    intro j h3 h4
    have := rising_getD os i j hr (by omega) h4
    omega
  | inr i =>
    obtain ⟨h1, h2, h3⟩ := hs
    have hi : 0 < i := by
      rcases Nat.eq_zero_or_pos i with h | h
      · subst h
        have := h3 0 (Nat.le_refl _) hpos
        omega
      · exact h
    refine walk_end os target hr _ (i - 1) (by omega) (by omega) (Nat.le_of_lt (h2 _ (by omega))) ?_
    intro j h4 h5
    exact Nat.le_of_lt (h3 j (by omega) h5)

theorem rising_sums : ∀ (lv : LV) (c : Nat), Rising (c :: sums c lv)
  | [], _ => trivial
  | x :: lv, c => ⟨by omega, rising_sums lv (c + x.1)⟩

end Verif.ListCol
