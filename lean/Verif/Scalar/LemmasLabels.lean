import Verif.Scalar.Spec

/-! What a search of a label-list index has to return, and helper lemmas for it. -/
namespace Verif.Scalar
open Verif
open Verif.RowSet (TreeMap)

/-- The list column of the row satisfies the query. -/
def LSat {V : Type} : LQuery V → Option (List (Option V)) → Prop
  | .hasAll ls, v => ∃ items, v = some items ∧ ∀ l ∈ ls, l ∈ items
  | .hasAny ls, v => ∃ items, v = some items ∧ ∃ l ∈ ls, l ∈ items

/-- The labels asked for. -/
def labelsOf {V : Type} : LQuery V → List (Option V)
  | .hasAll ls => ls
  | .hasAny ls => ls

theorem mem_unnest {V : Type} (rows : List (LRow V)) (x : Option V) (i : Nat) :
    (x, i) ∈ unnest rows ↔ ∃ items, (some items, i) ∈ rows ∧ x ∈ items := by
  unfold unnest
  simp only [List.mem_flatMap, List.mem_map]
  constructor
  · rintro ⟨⟨v, j⟩, h1, y, h2, h3⟩
    simp only [Prod.mk.injEq] at h3
    obtain ⟨rfl, rfl⟩ := h3
    cases v with
    | none => simp at h2
    | some items => exact ⟨items, h1, h2⟩
  · rintro ⟨items, h1, h2⟩
    exact ⟨_, h1, x, h2, rfl⟩

theorem fold_and (i : Nat) (ms : List TreeMap) (hms : ∀ m ∈ ms, Plain m) (m : TreeMap) (hm : Plain m) :
    Plain (ms.foldl RowSet.and m) ∧ (RowSet.contains (ms.foldl RowSet.and m) i = true ↔
      RowSet.contains m i = true ∧ ∀ t ∈ ms, RowSet.contains t i = true) := by
  induction ms generalizing m with
  | nil => exact ⟨hm, by simp⟩
  | cons t ms ih =>
    rw [List.foldl_cons]
    have ht := hms t (List.mem_cons_self ..)
    obtain ⟨h1, h2⟩ := ih (fun x hx => hms x (List.mem_cons_of_mem _ hx)) _ (plain_and hm ht)
    refine ⟨h1, ?_⟩
    rw [h2, contains_and hm]
    simp only [List.mem_cons, forall_eq_or_imp, and_assoc]

theorem fold_or (i : Nat) (ms : List TreeMap) (hms : ∀ m ∈ ms, Plain m) (m : TreeMap) (hm : Plain m) :
    Plain (ms.foldl RowSet.or m) ∧ (RowSet.contains (ms.foldl RowSet.or m) i = true ↔
      RowSet.contains m i = true ∨ ∃ t ∈ ms, RowSet.contains t i = true) := by
  induction ms generalizing m with
  | nil => exact ⟨hm, by simp⟩
  | cons t ms ih =>
    rw [List.foldl_cons]
    have ht := hms t (List.mem_cons_self ..)
    obtain ⟨h1, h2⟩ := ih (fun x hx => hms x (List.mem_cons_of_mem _ hx)) _ (plain_or hm ht)
    refine ⟨h1, ?_⟩
    rw [h2, contains_or ht]
    simp only [List.mem_cons, exists_eq_or_imp, or_assoc]

theorem search_values {V : Type} [LinOrd V] [DecidableEq V] {b : Bitmap V} {rows : List (Row V)} (h : BExact b rows)
    (ls : List (Option V)) :
    ∃ ms, searchValues b ls = some ms ∧ ms.length = ls.length ∧ (∀ m ∈ ms, Plain m) ∧
      ∀ i, i < 2 ^ 64 → ((∀ m ∈ ms, RowSet.contains m i = true) ↔ ∀ l ∈ ls, (l, i) ∈ rows) ∧
        ((∃ m ∈ ms, RowSet.contains m i = true) ↔ ∃ l ∈ ls, (l, i) ∈ rows) := by
  unfold searchValues
  induction ls with
  | nil => exact ⟨[], rfl, rfl, by simp, by simp⟩
  | cons l ls ih =>
    obtain ⟨ms, h1, h2, h3, h4⟩ := ih
    obtain ⟨m, g1, g2⟩ := bitmap_exact h (.equals l) ⟨fun h => h, fun h => h⟩
    have gp : Plain m := by
      cases l with
      | none => cases g1; exact h.plainNulls
      | some x => cases g1; exact plain_getKey h.plain x
    refine ⟨m :: ms, ?_, by simp [h2], ?_, ?_⟩
    · rw [List.map_cons, g1]
      simp only [allSome]
      rw [h1]; rfl
    · intro t ht
      rcases List.mem_cons.1 ht with rfl | ht
      · exact gp
      · exact h3 t ht
    · intro i hi
      have hm : RowSet.contains m i = true ↔ (l, i) ∈ rows := by
        rw [g2 i hi]; simp [Sat]
      obtain ⟨h5, h6⟩ := h4 i hi
      simp only [List.mem_cons, forall_eq_or_imp, exists_eq_or_imp, hm, h5, h6, and_self]

theorem labels_exact {V : Type} [LinOrd V] [DecidableEq V] {b : Bitmap V} {rows : List (LRow V)}
    (h : BExact b (unnest rows)) (hd : (rows.map (·.2)).Nodup) (q : LQuery V) (hq : labelsOf q ≠ []) :
    ∃ m, searchLabels b q = some m ∧
      ∀ i, i < 2 ^ 64 → (RowSet.contains m i = true ↔ ∃ v, (v, i) ∈ rows ∧ LSat q v) := by
  have huniq : ∀ a b i, (a, i) ∈ rows → (b, i) ∈ rows → a = b := by
    intro a b i h1 h2
    clear h
    induction rows with
    | nil => cases h1
    | cons r rows ih =>
      rw [List.map_cons, List.nodup_cons] at hd
      rcases List.mem_cons.1 h1 with h1 | h1 <;> rcases List.mem_cons.1 h2 with h2 | h2
      · rw [← h1] at h2; exact (Prod.mk.inj h2).1.symm
      · exact absurd (List.mem_map.2 ⟨_, h2, by rw [← h1]⟩) hd.1
      · exact absurd (List.mem_map.2 ⟨_, h1, by rw [← h2]⟩) hd.1
      · exact ih hd.2 h1 h2
  cases q with
  | hasAll ls =>
    obtain ⟨ms, h1, h2, h3, h4⟩ := search_values h ls
    cases ms with
    | nil => exact absurd (List.length_eq_zero_iff.1 h2.symm) hq
    | cons m ms =>
      refine ⟨ms.foldl RowSet.and m, by simp only [searchLabels]; rw [h1]; rfl, ?_⟩
      intro i hi
      rw [(fold_and i ms (fun t ht => h3 t (List.mem_cons_of_mem _ ht)) m (h3 m (List.mem_cons_self ..))).2]
      have h5 := (h4 i hi).1
      simp only [List.mem_cons, forall_eq_or_imp] at h5
      rw [h5]
      simp only [mem_unnest, LSat]
      constructor
      · intro hall
        cases ls with
        | nil => exact absurd rfl hq
        | cons l ls =>
          obtain ⟨items, h6, _⟩ := hall l (List.mem_cons_self ..)
          refine ⟨_, h6, items, rfl, ?_⟩
          intro l' hl'
          obtain ⟨items', h7, h8⟩ := hall l' hl'
          have := huniq _ _ i h6 h7
          cases this
          exact h8
      · rintro ⟨v, h6, items, rfl, h7⟩ l hl
        exact ⟨items, h6, h7 l hl⟩
  | hasAny ls =>
    obtain ⟨ms, h1, h2, h3, h4⟩ := search_values h ls
    cases ms with
    | nil => exact absurd (List.length_eq_zero_iff.1 h2.symm) hq
    | cons m ms =>
      refine ⟨ms.foldl RowSet.or m, by simp only [searchLabels]; rw [h1]; rfl, ?_⟩
      intro i hi
      rw [(fold_or i ms (fun t ht => h3 t (List.mem_cons_of_mem _ ht)) m (h3 m (List.mem_cons_self ..))).2]
      have h5 := (h4 i hi).2
      simp only [List.mem_cons, exists_eq_or_imp] at h5
      rw [h5]
      simp only [mem_unnest, LSat]
      constructor
      · rintro ⟨l, h6, items, h7, h8⟩
        exact ⟨_, h7, items, rfl, l, h6, h8⟩
      · rintro ⟨v, h6, items, rfl, l, h7, h8⟩
        exact ⟨l, h7, items, h6, h8⟩

theorem ids_unnest {V : Type} (rows : List (LRow V)) (hr : ∀ r ∈ rows, r.2 < 2 ^ 64) :
    ∀ r ∈ unnest rows, r.2 < 2 ^ 64 := by
  rintro ⟨x, i⟩ h
  obtain ⟨items, h1, _⟩ := (mem_unnest rows x i).1 h
  exact hr _ h1

end Verif.Scalar
