import Verif.Scalar.LemmasLabels

/-! C37: searches of scalar indices are exact. -/
namespace Verif.Scalar
open Verif
open Verif.RowSet (TreeMap)

/-- The whole property for the indices over a column of values: every query on every trained index is answered, and
exactly.  `shuffle` is the order in which a hash map yields its entries. -/
def C37_search_exact_statement : Prop :=
  ∀ (V : Type) [LinOrd V] [DecidableEq V] (rows : List (Row V)) (q : Query V), Ids64 rows →
    (∀ shuffle : List (Option V × TreeMap) → List (Option V × TreeMap), (∀ l, (shuffle l).Perm l) →
      ∃ m, bitmapSearch (trainBitmap shuffle rows) q = some m ∧ Exact rows q m) ∧
    (∃ m, flatSearch q rows = some m ∧ Exact rows q m) ∧
    (∀ bs stream, 0 < bs → stream.flatten = rows → InOrder rows →
      ∃ m, searchBTree (trainBTree bs stream) q = some m ∧ Exact rows q m)

/-- `x BETWEEN 5 AND 3` panics in the bitmap index. -/
theorem C37_search_exact_violated : ¬ C37_search_exact_statement := by
  intro h
  obtain ⟨m, hm, _⟩ := (h Nat [(some 4, 0)] (.range (.incl 5) (.incl 3)) (by intro r hr; simp at hr; subst hr; decide)).1
    id (fun l => List.Perm.refl l)
  revert hm
  have : bitmapSearch (trainBitmap id [(some 4, 0)]) (.range (.incl (5 : Nat)) (.incl 3)) = none := by decide +kernel
  rw [this]
  intro h
  cases h

/-- The same query panics in the btree index (here with two pages). -/
theorem C37_btree_crossed_violated :
    searchBTree (trainBTree 1 [[(some 4, 0)], [(some 6, 1)]]) (.range (.incl (9 : Nat)) (.incl 3)) = none := by
  decide +kernel

/-- `x IN (NULL, 7)` finds the NULL row with the bitmap index but not with the btree or flat index, although the code
of the latter says that it does (flat.rs:206-214). -/
theorem C37_null_in_list_violated :
    ∃ (rows : List (Row Nat)) (q : Query Nat) (mb mt mf : TreeMap),
      bitmapSearch (trainBitmap id rows) q = some mb ∧ searchBTree (trainBTree 4 [rows]) q = some mt ∧
      flatSearch q rows = some mf ∧ Exact rows q mb ∧ ¬ Exact rows q mt ∧ ¬ Exact rows q mf := by
  let rows : List (Row Nat) := [(none, 0), (some 7, 1)]
  have hids : Ids64 rows := by
    intro r hr
    simp [rows] at hr
    rcases hr with rfl | rfl <;> decide
  obtain ⟨mb, h1, h2⟩ := bitmap_exact (b := trainBitmap id rows) (rows := rows)
    (bExact_load (stExact_train stExact_nil rows hids) id (fun l => List.Perm.refl l)) (.isIn [none, some 7])
    ⟨fun h => h, fun h => h⟩
  refine ⟨rows, .isIn [none, some 7], mb, RowSet.extendMaps [] [RowSet.extendIds [] [1]], RowSet.extendIds [] [1], h1,
    by decide +kernel, by decide +kernel, h2, ?_, ?_⟩
  · intro h
    have := (h 0 (by decide)).2 ⟨none, by simp [rows], by simp [Sat]⟩
    revert this
    decide +kernel
  · intro h
    have := (h 0 (by decide)).2 ⟨none, by simp [rows], by simp [Sat]⟩
    revert this
    decide +kernel

/-- **C37**, bitmap index: every query is answered exactly except ranges that are crossed or pinched (missing: these
panic). -/
theorem C37_bitmap_partial {V : Type} [LinOrd V] [DecidableEq V] (rows : List (Row V)) (hr : Ids64 rows)
    (shuffle : List (Option V × TreeMap) → List (Option V × TreeMap)) (hs : ∀ l, (shuffle l).Perm l) (q : Query V) :
    (bitmapSearch (trainBitmap shuffle rows) q = none ↔ Crossed q ∨ Pinched q) ∧
    (¬ Crossed q → ¬ Pinched q → ∃ m, bitmapSearch (trainBitmap shuffle rows) q = some m ∧ Exact rows q m) :=
  ⟨bitmap_panics _ q, fun h1 h2 =>
    bitmap_exact (bExact_load (stExact_train stExact_nil rows hr) shuffle hs) q ⟨h1, h2⟩⟩

/-- **C37**, flat index: every query is answered exactly, except a range without bounds (panics) and a list with a
NULL (the NULL rows are missing). -/
theorem C37_flat_partial {V : Type} [LinOrd V] [DecidableEq V] (rows : List (Row V)) (hr : Ids64 rows) (q : Query V)
    (h1 : q ≠ .range .unb .unb) (hn : NullFree q) : ∃ m, flatSearch q rows = some m ∧ Exact rows q m := by
  refine ⟨_, if_neg h1, ?_⟩
  intro i hi
  rw [contains_extendIds _ _ _ _ hi]
  · simp only [contains_nil, Bool.false_eq_true, false_or, List.mem_map, List.mem_filter]
    constructor
    · rintro ⟨⟨v, j⟩, ⟨h3, h4⟩, rfl⟩
      exact ⟨v, h3, (flatKeep_iff q hn v).1 h4⟩
    · rintro ⟨v, h3, h4⟩
      exact ⟨(v, i), ⟨h3, (flatKeep_iff q hn v).2 h4⟩, rfl⟩
  · intro j hj
    rw [List.mem_map] at hj
    obtain ⟨r, h3, rfl⟩ := hj
    exact hr r (List.mem_filter.1 h3).1

/-- **C37**, btree index: for every page size, every cutting of the ordered rows into batches and every query that is
not crossed, without bounds or a list with NULL (missing: the first two may panic, the third loses the NULL rows). -/
theorem C37_btree_partial {V : Type} [LinOrd V] [DecidableEq V] (bs : Nat) (hb : 0 < bs)
    (stream : List (List (Row V))) (hord : InOrder stream.flatten) (hr : Ids64 stream.flatten) (q : Query V)
    (h1 : q ≠ .range .unb .unb) (h2 : ¬ Crossed q) (hn : NullFree q) :
    ∃ m, searchBTree (trainBTree bs stream) q = some m ∧ Exact stream.flatten q m :=
  btree_exact (covers_train bs hb stream hord) hr q (Or.inl hn) h1 h2

/-- A list with NULL in a btree index: exactly the rows whose value is in the list and is not NULL. -/
theorem C37_btree_null_list {V : Type} [LinOrd V] [DecidableEq V] (bs : Nat) (hb : 0 < bs)
    (stream : List (List (Row V))) (hord : InOrder stream.flatten) (hr : Ids64 stream.flatten)
    (ws : List (Option V)) :
    ∃ m, searchBTree (trainBTree bs stream) (.isIn ws) = some m ∧
      ∀ i, i < 2 ^ 64 → (RowSet.contains m i = true ↔ ∃ x, (some x, i) ∈ stream.flatten ∧ some x ∈ ws) := by
  obtain ⟨m, hm⟩ := search_some (trainBTree bs stream) (.isIn ws) (by simp) (fun lo hi h => by cases h)
  refine ⟨m, hm, ?_⟩
  intro i hi
  rw [search_covers (covers_train bs hb stream hord) hr hm i hi]
  constructor
  · rintro ⟨v, h1, h2⟩
    cases v with
    | none => simp [flatKeep] at h2
    | some x => exact ⟨x, h1, by simpa [flatKeep] using h2⟩
  · rintro ⟨x, h1, h2⟩
    exact ⟨_, h1, by simpa [flatKeep] using h2⟩

/-! ### Label lists -/

/-- The whole property for the label-list index. -/
def C37_labels_statement : Prop :=
  ∀ (V : Type) [LinOrd V] [DecidableEq V] (rows : List (LRow V)) (q : LQuery V), (∀ r ∈ rows, r.2 < 2 ^ 64) →
    (rows.map (·.2)).Nodup → ∃ m, searchLabels (trainBitmap id (unnest rows)) q = some m ∧
      ∀ i, i < 2 ^ 64 → (RowSet.contains m i = true ↔ ∃ v, (v, i) ∈ rows ∧ LSat q v)

/-- `array_has_any(x, [])` panics. -/
theorem C37_labels_violated : ¬ C37_labels_statement := by
  intro h
  obtain ⟨m, hm, _⟩ := h Nat [(some [some 1], 0)] (.hasAny []) (by intro r hr; simp at hr; subst hr; decide) (by simp)
  revert hm
  have : searchLabels (trainBitmap id (unnest [(some [some 1], 0)])) (.hasAny ([] : List (Option Nat))) = none := by
    decide +kernel
  rw [this]
  intro h
  cases h

/-- **C37**, label-list index: every query with at least one label is answered exactly (missing: a query without
labels panics). -/
theorem C37_labels_partial {V : Type} [LinOrd V] [DecidableEq V] (rows : List (LRow V))
    (hr : ∀ r ∈ rows, r.2 < 2 ^ 64) (hd : (rows.map (·.2)).Nodup)
    (shuffle : List (Option V × TreeMap) → List (Option V × TreeMap)) (hs : ∀ l, (shuffle l).Perm l) (q : LQuery V)
    (hq : labelsOf q ≠ []) :
    ∃ m, searchLabels (trainBitmap shuffle (unnest rows)) q = some m ∧
      ∀ i, i < 2 ^ 64 → (RowSet.contains m i = true ↔ ∃ v, (v, i) ∈ rows ∧ LSat q v) :=
  labels_exact (bExact_load (stExact_train stExact_nil _ (ids_unnest rows hr)) shuffle hs) hd q hq

/-! ### Concrete cases -/

/-- Pages of two rows, with NULLs and a value that fills several pages. -/
def exStream : List (List (Row Nat)) :=
  [[(none, 7), (none, 3)], [(none, 9), (some 1, 4), (some 5, 0)], [(some 5, 1), (some 5, 2), (some 5, 6), (some 8, 5)]]

example : InOrder exStream.flatten := by unfold InOrder exStream; decide +kernel
example : Ids64 exStream.flatten := by unfold Ids64; decide +kernel
example : searchBTree (trainBTree 2 exStream) (.equals (some 5)) =
    some (RowSet.extendMaps [] [RowSet.extendIds [] [0, 1, 2, 6]]) := by decide +kernel
example : searchBTree (trainBTree 2 exStream) (.range (.excl 1) (.incl 5)) =
    some (RowSet.extendIds [] [0, 1, 2, 6]) := by decide +kernel
example : searchBTree (trainBTree 2 exStream) .isNull = some (RowSet.extendIds [] [3, 7, 9]) := by decide +kernel
example : bitmapSearch (trainBitmap id exStream.flatten) (.isIn [none, some 8]) =
    some (RowSet.extendIds [] [3, 5, 7, 9]) := by decide +kernel
example : NullFree (.isIn [some 1, some 8] : Query Nat) := by simp [NullFree]
example : ¬ Crossed (.range (.incl 3) (.excl 3) : Query Nat) := by simp [Crossed]; decide
/-- Three rows of lists, one of them NULL. -/
def exLists : List (LRow Nat) := [(some [some 1, some 2], 4), (none, 2), (some [none, some 2], 9)]
example : searchLabels (trainBitmap id (unnest exLists)) (.hasAll [some 2, none]) = some (RowSet.extendIds [] [9]) := by
  decide +kernel
example : searchLabels (trainBitmap id (unnest exLists)) (.hasAny [some 1, none]) =
    some (RowSet.extendIds [] [4, 9]) := by decide +kernel

end Verif.Scalar
