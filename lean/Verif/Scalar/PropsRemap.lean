import Verif.Scalar.LemmasRemap

/-! C38: scalar indices stay exact after a compaction. -/
namespace Verif.Scalar
open Verif
open Verif.RowSet (TreeMap)

/-- The set `m` is exactly the set of the new ids of the rows that satisfy the query. -/
def ExactMoved {V : Type} [LinOrd V] (rows : List (Row V)) (f : Mapping) (q : Query V) (m : TreeMap) : Prop :=
  ∀ j, j < 2 ^ 64 → (RowSet.contains m j = true ↔ ∃ v i, (v, i) ∈ rows ∧ Moved f i j ∧ Sat q v)

/-- New ids are 64 bit numbers. -/
def Map64 (f : Mapping) : Prop := ∀ i n, f i = some (some n) → n < 2 ^ 64

/-- The whole property: every index, every address map, every query that the index answers at all. -/
def C38_remap_statement : Prop :=
  ∀ (V : Type) [LinOrd V] [DecidableEq V] (rows : List (Row V)) (f : Mapping) (q : Query V), Ids64 rows → Map64 f →
    ¬ Crossed q → ¬ Pinched q → NullFree q → q ≠ .range .unb .unb →
    (∃ b m, remapBitmap id f (trainBitmap id rows) = some b ∧ bitmapSearch b q = some m ∧ ExactMoved rows f q m) ∧
    (∀ bs, 0 < bs → InOrder rows → ∃ m, searchBTree (remapBTree f (trainBTree bs [rows])) q = some m ∧
      ExactMoved rows f q m)

/-- Nothing is moved, yet the remapped bitmap index has lost every row: ids that are not in the map are dropped. -/
theorem C38_remap_violated : ¬ C38_remap_statement := by
  intro h
  obtain ⟨b, m, hb, hm, he⟩ := (h Nat [(some 4, 0)] (fun _ => none) (.equals (some 4))
    (by intro r hr; simp at hr; subst hr; decide) (by intro i n h; cases h) (fun h => h) (fun h => h) trivial
    (by simp)).1
  have := (he 0 (by decide)).2 ⟨some 4, 0, by simp, Or.inr ⟨rfl, rfl⟩, by simp [Sat]⟩
  have hb' : (remapBitmap id (fun _ => none) (trainBitmap id [(some (4 : Nat), 0)])).map
      (fun b => bitmapSearch b (.equals (some 4))) = some (some []) := by decide +kernel
  rw [hb] at hb'
  simp only [Option.map_some, Option.some.injEq] at hb'
  rw [hb'] at hm
  cases hm
  revert this
  decide +kernel

/-- The NULL rows are lost as well, even if all rows are in the map. -/
theorem C38_bitmap_nulls_violated :
    ∃ b : Bitmap Nat, remapBitmap id (fun i => some (some (i + 10))) (trainBitmap id [(none, 0), (some 4, 1)]) = some b ∧
      bitmapSearch b .isNull = some [] := by
  refine ⟨_, by rfl, ?_⟩
  decide +kernel

/-- Pages of three rows: rows 1 and 2 are removed, so the row with value 5 moves from page 1 to page 0 while the lookup
still points to page 1. -/
theorem C38_btree_removed_violated :
    let rows : List (Row Nat) := [(some 1, 1), (some 2, 2), (some 3, 3), (some 4, 4), (some 5, 5), (some 6, 6)]
    let f : Mapping := fun i => if i ≤ 2 then some none else some (some (i + 10))
    ∃ m, searchBTree (remapBTree f (trainBTree 3 [rows])) (.equals (some 5)) = some m ∧ ¬ ExactMoved rows f (.equals (some 5)) m := by
  refine ⟨[], by decide +kernel, ?_⟩
  intro h
  have := (h 15 (by decide)).2 ⟨some 5, 5, by simp, Or.inl (by decide), by simp [Sat]⟩
  revert this
  decide +kernel

/-- No row is removed, but a whole page is NULL: it is written after the others, at the wrong place. -/
theorem C38_btree_null_page_violated :
    let rows : List (Row Nat) := [(none, 0), (none, 1), (some 3, 2), (some 4, 3), (some 7, 4), (some 8, 5)]
    let f : Mapping := fun i => some (some (i + 10))
    ∃ m, searchBTree (remapBTree f (trainBTree 2 [rows])) (.equals (some 3)) = some m ∧ ¬ ExactMoved rows f (.equals (some 3)) m := by
  refine ⟨[], by decide +kernel, ?_⟩
  intro h
  have := (h 12 (by decide)).2 ⟨some 3, 2, by simp, Or.inl (by decide), by simp [Sat]⟩
  revert this
  decide +kernel

/-- **C38**, bitmap index: what a remapped index returns, exactly.  Missing compared with the property: the rows that
are not in the address map and the NULL rows. -/
theorem C38_bitmap_exact_partial {V : Type} [LinOrd V] [DecidableEq V] (rows : List (Row V)) (hr : Ids64 rows)
    (f : Mapping) (hf : Map64 f) (s1 s2 : List (Option V × TreeMap) → List (Option V × TreeMap))
    (h1 : ∀ l, (s1 l).Perm l) (h2 : ∀ l, (s2 l).Perm l) (q : Query V) (hq : ¬ Crossed q) (hq' : ¬ Pinched q) :
    ∃ b m, remapBitmap s2 f (trainBitmap s1 rows) = some b ∧ bitmapSearch b q = some m ∧
      ∀ j, j < 2 ^ 64 → (RowSet.contains m j = true ↔
        ∃ x i, (some x, i) ∈ rows ∧ f i = some (some j) ∧ Sat q (some x)) := by
  obtain ⟨b, hb, he⟩ := remapBitmap_spec f hf hr (bExact_load (stExact_train stExact_nil rows hr) s1 h1) s2 h2
  obtain ⟨m, hm, hx⟩ := bitmap_exact he q ⟨hq, hq'⟩
  refine ⟨b, m, hb, hm, ?_⟩
  intro j hj
  rw [hx j hj]
  simp only [List.mem_filterMap]
  constructor
  · rintro ⟨v, ⟨⟨w, i⟩, h3, h4⟩, h5⟩
    unfold bitmapRemapRow at h4
    split at h4
    · rename_i x n hw hn
      simp only [Option.some.injEq, Prod.mk.injEq] at h4
      obtain ⟨rfl, rfl⟩ := h4
      simp only at hw hn
      subst hw
      exact ⟨x, i, h3, hn, h5⟩
    · cases h4
  · rintro ⟨x, i, h3, h4, h5⟩
    exact ⟨some x, ⟨(some x, i), h3, by simp [bitmapRemapRow, h4]⟩, h5⟩

/-- **C38**, bitmap index: the property holds if every indexed row is in the address map and the query does not
select NULL. -/
theorem C38_bitmap_partial {V : Type} [LinOrd V] [DecidableEq V] (rows : List (Row V)) (hr : Ids64 rows)
    (f : Mapping) (hf : Map64 f) (s1 s2 : List (Option V × TreeMap) → List (Option V × TreeMap))
    (h1 : ∀ l, (s1 l).Perm l) (h2 : ∀ l, (s2 l).Perm l) (q : Query V) (hq : ¬ Crossed q) (hq' : ¬ Pinched q)
    (hall : ∀ r ∈ rows, f r.2 ≠ none) (hn : ¬ Sat q none ∨ ∀ r ∈ rows, r.1 ≠ none) :
    ∃ b m, remapBitmap s2 f (trainBitmap s1 rows) = some b ∧ bitmapSearch b q = some m ∧ ExactMoved rows f q m := by
  obtain ⟨b, m, hb, hm, hx⟩ := C38_bitmap_exact_partial rows hr f hf s1 s2 h1 h2 q hq hq'
  refine ⟨b, m, hb, hm, ?_⟩
  intro j hj
  rw [hx j hj]
  constructor
  · rintro ⟨x, i, h3, h4, h5⟩
    exact ⟨some x, i, h3, Or.inl h4, h5⟩
  · rintro ⟨v, i, h3, h4, h5⟩
    cases v with
    | none =>
      rcases hn with hn | hn
      · exact absurd h5 hn
      · exact absurd rfl (hn _ h3)
    | some x =>
      rcases h4 with h4 | ⟨h4, _⟩
      · exact ⟨x, i, h3, h4, h5⟩
      · exact absurd h4 (hall _ h3)

/-- **C38**, btree index: the property holds if all rows are on one page, or if no indexed row is removed and there
are fewer NULLs than rows on a page (missing: all other cases; see the two counterexamples). -/
theorem C38_btree_partial {V : Type} [LinOrd V] [DecidableEq V] (bs : Nat) (hb : 0 < bs)
    (stream : List (List (Row V))) (hord : InOrder stream.flatten) (hr : Ids64 stream.flatten)
    (f : Mapping) (hf : Map64 f)
    (hc : stream.flatten.length ≤ bs ∨ ((∀ r ∈ stream.flatten, f r.2 ≠ some none) ∧
      (stream.flatten.filter (fun r => r.1 == none)).length < bs))
    (q : Query V) (h1 : q ≠ .range .unb .unb) (h2 : ¬ Crossed q) (hn : NullFree q) :
    ∃ m, searchBTree (remapBTree f (trainBTree bs stream)) q = some m ∧ ExactMoved stream.flatten f q m := by
  have hform := form_train bs hb stream hord
  have hfile : (trainBTree bs stream).file = stream.flatten := (chunk_pages stream bs hb).1
  have hcov := covers_remap hform f (by rw [hfile]; exact hc)
  rw [hfile] at hcov
  have hids : Ids64 (remapBatch f stream.flatten) := by
    rintro ⟨v, j⟩ hj
    obtain ⟨i, h3, h4 | ⟨_, rfl⟩⟩ := (mem_remapBatch _ _ _ _).1 hj
    · exact hf i j h4
    · exact hr _ h3
  obtain ⟨m, hm, hx⟩ := btree_exact hcov hids q (Or.inl hn) h1 h2
  refine ⟨m, hm, ?_⟩
  intro j hj
  rw [hx j hj]
  simp only [mem_remapBatch]
  constructor
  · rintro ⟨v, ⟨i, h3, h4⟩, h5⟩; exact ⟨v, i, h3, h4, h5⟩
  · rintro ⟨v, i, h3, h4, h5⟩; exact ⟨v, ⟨i, h3, h4⟩, h5⟩

/-! ### Concrete cases -/

/-- Five rows, one NULL, on pages of two. -/
def exRows : List (Row Nat) := [(none, 1), (some 2, 0), (some 3, 4), (some 3, 3), (some 9, 2)]

/-- Rows 3 and 4 are moved. -/
def exMove : Mapping := fun i => if i = 3 ∨ i = 4 then some (some (i + 2 ^ 32)) else none

example : InOrder exRows := by unfold InOrder exRows; decide +kernel
example : (∀ r ∈ exRows, exMove r.2 ≠ some none) ∧ (exRows.filter (fun r => r.1 == none)).length < 2 := by
  decide +kernel
example : searchBTree (remapBTree exMove (trainBTree 2 [exRows])) (.range (.incl 2) (.excl 9)) =
    some (RowSet.extendIds [] [0, 2 ^ 32 + 3, 2 ^ 32 + 4]) := by decide +kernel
/-- All rows on one page: one of them is removed. -/
example : searchBTree (remapBTree (fun i => if i = 3 then some none else none) (trainBTree 8 [exRows]))
    (.equals (some 3)) = some (RowSet.extendIds [] [4]) := by decide +kernel
example : (remapBitmap id (fun i => some (some (i + 7))) (trainBitmap id exRows)).bind
    (fun b => bitmapSearch b (.equals (some 3))) = some (RowSet.extendIds [] [10, 11]) := by decide +kernel

end Verif.Scalar
