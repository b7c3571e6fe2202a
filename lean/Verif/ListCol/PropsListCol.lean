import Verif.ListCol.LemmasCol
/-! C62 (rows of a column of pages) and C63 (list columns of file version 2.0). -/
namespace Verif.ListCol

/-! ## C62 -/

/-- C62: a column that is written in arrays of any sizes, with any limits on the memory and on the size of a page, gives
for ascending row numbers (a number may come twice) the values of these rows, in this order. -/
theorem C62_take {α : Type} (size : List α → Nat) (pageBytes cache : Nat) (arrs : List (List α)) (indices : List Nat)
    (ha : Ascending indices) (hn : ∀ i ∈ indices, i < arrs.flatten.length) :
    readPages (encodeFlat size pageBytes ⟨cache, [], 0⟩ arrs) (takeRanges indices) =
      indices.mapM (fun i => arrs.flatten[i]?) := by
  have hf : (encodeFlat size pageBytes ⟨cache, [], 0⟩ arrs).flatten = arrs.flatten := by
    rw [encodeFlat_flatten]; rfl
  rw [readPages_overlap _ _ (by rw [hf]; exact take_overlap _ indices ha hn), hf]
  exact wanted_take _ indices hn

/-- Three arrays in pages of two rows; row 3 is asked for twice. -/
example : Ascending [0, 3, 3, 6] ∧ (∀ i ∈ [0, 3, 3, 6], i < [[10, 11], [12, 13, 14], [15, 16, 17]].flatten.length) ∧
    encodeFlat (fun a => a.length) 2 ⟨2, [], 0⟩ [[10, 11], [12, 13, 14], [15, 16, 17]] =
      [[10, 11, 12, 13, 14], [15, 16], [17]] ∧
    readPages (encodeFlat (fun a => a.length) 2 ⟨2, [], 0⟩ [[10, 11], [12, 13, 14], [15, 16, 17]])
      (takeRanges [0, 3, 3, 6]) = some [10, 13, 13, 16] := by
  refine ⟨by simp [Ascending], by decide, by decide, by decide⟩

/-- C62: the same for ranges that are in order and not empty; a range may begin at the last row of the range before. -/
theorem C62_ranges {α : Type} (size : List α → Nat) (pageBytes cache : Nat) (arrs : List (List α)) (ranges : List Rng)
    (ho : Overlap arrs.flatten.length ranges) :
    readPages (encodeFlat size pageBytes ⟨cache, [], 0⟩ arrs) ranges =
      some (ranges.flatMap (fun r => (arrs.flatten.drop r.1).take (r.2 - r.1))) := by
  have hf : (encodeFlat size pageBytes ⟨cache, [], 0⟩ arrs).flatten = arrs.flatten := by
    rw [encodeFlat_flatten]; rfl
  rw [readPages_overlap _ _ (by rw [hf]; exact ho), hf]
  rfl

/-- A range over three pages. -/
example : Overlap 8 [(1, 6), (5, 8)] ∧
    readPages [[10, 11], [12], [], [13, 14, 15], [16, 17]] [(1, 6), (5, 8)] =
      some [11, 12, 13, 14, 15, 15, 16, 17] := by
  refine ⟨by simp [Overlap], by decide⟩

/-- C62: nothing is lost or moved when arrays become pages. -/
theorem C62_pages {α : Type} (size : List α → Nat) (pageBytes cache : Nat) (arrs : List (List α)) :
    (encodeFlat size pageBytes ⟨cache, [], 0⟩ arrs).flatten = arrs.flatten := by
  rw [encodeFlat_flatten]; rfl

/-- An array of five rows that is to be cut in four: pages of 2, 2, 1 and 0 rows. -/
example : encodeFlat (fun _ => 4) 1 ⟨0, [], 0⟩ [[1, 2, 3, 4, 5]] = [[1, 2], [3, 4], [5], []] := by decide

/-! ## C63 -/

/-- C63, for a take of ascending row numbers (LanceFileReader.take_rows allows a number to come twice): the lists of
these rows, in this order. -/
def C63_take_statement : Prop :=
  ∀ (size : Buf → Nat) (cache : Nat) (arrs : List (Arr Nat)) (itemPages : List (List Nat)) (indices : List Nat),
    (∀ a ∈ arrs, a.Ok) → itemPages.flatten = arrs.flatMap itemsOf → Ascending indices →
    (∀ i ∈ indices, i < (arrs.flatMap Arr.rows).length) →
    ∃ pages out, encodeStream size ⟨cache, [], 0⟩ arrs = some pages ∧
      readLists pages (readPages itemPages) (takeRanges indices) = some out ∧
      some (out.flatMap Loaded.rows) = indices.mapM (fun i => (arrs.flatMap Arr.rows)[i]?)

theorem okArr : ∀ a ∈ [(⟨[0, 3], none, [1, 2, 3]⟩ : Arr Nat)], a.Ok := by
  intro a h
  simp only [List.mem_singleton] at h
  subst h
  refine ⟨by decide, ⟨by decide, trivial⟩, by decide, fun v hv => by cases hv⟩

/-- C63 does not hold: `take_rows([0, 0])` gives the list of row 0 and then an empty list. -/
theorem C63_take_violated : ¬ C63_take_statement := by
  intro h
  obtain ⟨pages, out, h1, h2, h3⟩ := h (fun _ => 0) 10 [⟨[0, 3], none, [1, 2, 3]⟩] [[1, 2, 3]] [0, 0] okArr rfl
    (by simp [Ascending]) (by decide)
  have e1 : encodeStream (fun _ => 0) ⟨10, [], 0⟩ [(⟨[0, 3], none, [1, 2, 3]⟩ : Arr Nat)] = some [([3], ⟨1, 4, 3⟩)] := by
    decide
  rw [e1] at h1
  cases h1
  have e2 : (readLists [([3], ⟨1, 4, 3⟩)] (readPages [[1, 2, 3]]) (takeRanges [0, 0])).map (List.flatMap Loaded.rows) =
      some [some [1, 2, 3], some []] := by decide
  rw [h2] at e2
  simp only [Option.map_some, Option.some.injEq] at e2
  rw [e2] at h3
  revert h3
  decide

/-- C63 does not hold: a row that comes twice, with items that are in two pages, ends in a panic. -/
theorem C63_take_panic_violated :
    (encodeStream (fun _ => 0) ⟨10, [], 0⟩ [(⟨[0, 1, 4], none, [9, 1, 2, 3]⟩ : Arr Nat)]).map
        (fun p => (readLists p (readPages [[9, 1], [2, 3]]) (takeRanges [1, 1])).isSome) = some false := by
  decide

/-- C63 does not hold: the empty range at the end of the file, which a flat column allows, ends in a panic. -/
theorem C63_empty_range_violated :
    (encodeStream (fun _ => 0) ⟨10, [], 0⟩ [(⟨[0, 1, 4], none, [9, 1, 2, 3]⟩ : Arr Nat)]).map
        (fun p => (readLists p (readPages [[9, 1], [2, 3]]) [(2, 2)]).isSome) = some false ∧
      readPages [[9, 1], [2, 3]] [(4, 4)] = some [] := by
  decide

/-- C63, the part that holds: lists that are written in arrays of any sizes (with null lists that have items, arrays that
are slices and offsets that do not begin at 0), with any limit on memory, and items in a column that can be read: every
sequence of ranges in order gives the lists of these rows, with the null lists null.

Missing: rows that come twice and empty ranges (see above). -/
theorem C63_ranges_partial {α : Type} (size : Buf → Nat) (cache : Nat) (arrs : List (Arr α)) (hok : ∀ a ∈ arrs, a.Ok)
    (readItems : List Rng → Option (List α)) (hr : Reads readItems (arrs.flatMap itemsOf)) (ranges : List Rng)
    (ho : Ordered (arrs.flatMap Arr.rows).length ranges) :
    ∃ pages out, encodeStream size ⟨cache, [], 0⟩ arrs = some pages ∧ readLists pages readItems ranges = some out ∧
      out.flatMap Loaded.rows =
        ranges.flatMap (fun r => ((arrs.flatMap Arr.rows).drop r.1).take (r.2 - r.1)) := by
  obtain ⟨pages, out, h1, h2, h3, -⟩ := read_written arrs hok size cache readItems hr ranges ho
  exact ⟨pages, out, h1, h2, h3⟩

/-- Null, empty and filled lists in two pages of offsets and three pages of items; the second array begins at offset 2 and
its null list has an item. -/
def exampleArrs : List (Arr Nat) :=
  [⟨[0, 2, 2, 3], some [true, false, true], [1, 2, 3]⟩, ⟨[2, 3, 5, 5, 6], some [true, false, true, true], [0, 0, 4, 5, 6, 7]⟩]

example : (∀ a ∈ exampleArrs, a.Ok) ∧ Ordered 7 [(1, 4), (4, 5), (6, 7)] ∧
    exampleArrs.flatMap Arr.rows = [some [1, 2], none, some [3], some [4], none, some [], some [7]] ∧
    (encodeStream (fun _ => 1) ⟨1, [], 0⟩ exampleArrs) =
      some [([2, 6, 3], ⟨3, 4, 3⟩), ([1, 8, 3, 4], ⟨4, 5, 4⟩)] ∧
    (readLists [([2, 6, 3], ⟨3, 4, 3⟩), ([1, 8, 3, 4], ⟨4, 5, 4⟩)] (readPages [[1, 2], [3, 4, 5], [6, 7]])
      [(1, 4), (4, 5), (6, 7)]).map (List.flatMap Loaded.rows) =
      some [none, some [3], some [4], none, some [7]] := by
  refine ⟨?_, by simp [Ordered], by decide, by decide +kernel, by decide +kernel⟩
  intro a h
  simp only [exampleArrs, List.mem_cons, List.not_mem_nil, or_false] at h
  rcases h with rfl | rfl
  · exact ⟨by decide, by simp [Rising], by decide, fun v hv => by cases hv; rfl⟩
  · exact ⟨by decide, by simp [Rising], by decide, fun v hv => by cases hv; rfl⟩

/-- C63, the part that holds for a take: row numbers that rise. -/
theorem C63_take_partial {α : Type} (size : Buf → Nat) (cache : Nat) (arrs : List (Arr α)) (hok : ∀ a ∈ arrs, a.Ok)
    (readItems : List Rng → Option (List α)) (hr : Reads readItems (arrs.flatMap itemsOf)) (indices : List Nat)
    (ha : indices.Pairwise (· < ·)) (hn : ∀ i ∈ indices, i < (arrs.flatMap Arr.rows).length) :
    ∃ pages out, encodeStream size ⟨cache, [], 0⟩ arrs = some pages ∧
      readLists pages readItems (takeRanges indices) = some out ∧
      some (out.flatMap Loaded.rows) = indices.mapM (fun i => (arrs.flatMap Arr.rows)[i]?) := by
  obtain ⟨pages, out, h1, h2, h3, -⟩ := read_written arrs hok size cache readItems hr _ (take_ordered _ indices ha hn)
  refine ⟨pages, out, h1, h2, ?_⟩
  rw [h3]
  exact wanted_take _ indices hn

example : (readLists [([2, 6, 3], ⟨3, 4, 3⟩), ([1, 8, 3, 4], ⟨4, 5, 4⟩)] (readPages [[1, 2], [3, 4, 5], [6, 7]])
      (takeRanges [0, 1, 3, 5, 6])).map (List.flatMap Loaded.rows) =
    some [some [1, 2], none, some [4], some [], some [7]] := by decide +kernel

/-- C63: lists of lists (of lists …): a column of any depth that was written, each part in arrays and pages of any sizes,
gives for ranges in order the values of these rows. -/
theorem C63_nested_partial {P : Type} {c : Col P} {vs : List (Val P)} (h : Written c vs) (ranges : List Rng)
    (ho : Ordered vs.length ranges) :
    c.read ranges = some (ranges.flatMap (fun r => (vs.drop r.1).take (r.2 - r.1))) :=
  written_reads h ranges ho

/-- A list of lists of numbers in a file: `[[[1, 2], []], [], [null, [3]]]`. -/
example : ∃ (c : Col Nat) (vs : List (Val Nat)), Written c vs ∧ vs.length = 3 ∧ Ordered vs.length [(0, 1), (2, 3)] ∧
    vs = [.list (some [.list (some [.prim 1, .prim 2]), .list (some [])]), .list (some []),
      .list (some [.list none, .list (some [.prim 3])])] := by
  let inner : List (Arr (Val Nat)) := [⟨[0, 2, 2, 2, 3], some [true, true, false, true], [.prim 1, .prim 2, .prim 3]⟩]
  let outer : List (Arr (Val Nat)) := [⟨[0, 2, 2, 4], none, (inner.flatMap Arr.rows).map Val.list⟩]
  have hi : ∀ a ∈ inner, a.Ok := by
    intro a h
    simp only [inner, List.mem_singleton] at h
    subst h
    exact ⟨by simp, by simp [Rising], by simp, fun v hv => by cases hv; rfl⟩
  have ho : ∀ a ∈ outer, a.Ok := by
    intro a h
    simp only [outer, List.mem_singleton] at h
    subst h
    exact ⟨by simp, by simp [Rising], by simp [inner, Arr.rows, lists, Arr.flags], fun v hv => by cases hv⟩
  have w1 : Written (Col.flat (encodeFlat (fun _ => 0) 1 ⟨0, [], 0⟩ [[1, 2, 3]])) (inner.flatMap itemsOf) :=
    Written.flat (P := Nat) (fun _ => 0) 1 0 [[1, 2, 3]]
  have w2 := Written.list (fun _ => 0) 0 inner _ _ hi rfl w1
  have w3 := Written.list (fun _ => 0) 0 outer _ _ ho rfl w2
  exact ⟨_, _, w3, rfl, by simp [Ordered, outer, inner, Arr.rows, lists, Arr.flags], rfl⟩

/-- C63: the batches that are drained from a page, of any sizes, are the lists of the page in order.  With offsets of 32
bits a page with more than 2^31 - 1 items may give an error instead. -/
theorem C63_drain_partial {α : Type} (size : Buf → Nat) (cache : Nat) (arrs : List (Arr α)) (hok : ∀ a ∈ arrs, a.Ok)
    (readItems : List Rng → Option (List α)) (hr : Reads readItems (arrs.flatMap itemsOf)) (ranges : List Rng)
    (ho : Ordered (arrs.flatMap Arr.rows).length ranges) :
    ∃ pages out, encodeStream size ⟨cache, [], 0⟩ arrs = some pages ∧ readLists pages readItems ranges = some out ∧
      ∀ l ∈ out, ∀ (narrow : Bool) (ns : List Nat), ns.sum = l.rows.length →
        (narrow = true ∧ 2147483647 < l.items.length ∧ Decoder.drains narrow ns ⟨l, 0, 0⟩ = none) ∨
        ∃ batches, Decoder.drains narrow ns ⟨l, 0, 0⟩ = some batches ∧ batches.flatMap Arr.rows = l.rows := by
  obtain ⟨pages, out, h1, h2, -, h4⟩ := read_written arrs hok size cache readItems hr ranges ho
  refine ⟨pages, out, h1, h2, ?_⟩
  intro l hl narrow ns hs
  obtain ⟨lv, e1, e2, e3⟩ := h4 l hl
  have hrows : l.rows = cells l.items 0 lv := by unfold Loaded.rows; rw [e1, e2, lists_sums]
  have hlen : l.rows.length = lv.length := by rw [hrows, length_cells]
  rw [e3]
  rcases drains_ok lv narrow ns (⟨l, 0, 0⟩ : Decoder α) ⟨e1, e2, e3, by simp [total]⟩ (by simp only; omega) with h | ⟨b, b1, b2⟩
  · exact Or.inl h
  · refine Or.inr ⟨b, b1, ?_⟩
    rw [b2, Nat.zero_add, hs]
    exact slice_all _

example : Decoder.drains true [1, 0, 3, 1] (⟨⟨[0, 2, 2, 3, 3, 4], [true, false, true, true, true], [1, 2, 3, 4]⟩, 0, 0⟩ : Decoder Nat) =
    some [⟨[0, 2], none, [1, 2]⟩, ⟨[0], none, []⟩, ⟨[0, 0, 1, 1], some [false, true, true], [3]⟩, ⟨[0, 1], none, [4]⟩] := by
  decide

/-- C63: the number of lists that count as loaded is the number of lists all of whose items are loaded, whichever of the
equal elements the binary search finds. -/
theorem C63_loaded (lens : List Nat) (flags : List Bool) (loaded : Nat) (found : Nat ⊕ Nat)
    (hs : IsSearch (0 :: sums 0 (List.zip lens flags)) loaded found) (j : Nat)
    (hj : j < (0 :: sums 0 (List.zip lens flags)).length) :
    j ≤ searchToEnd (0 :: sums 0 (List.zip lens flags)) loaded found ↔
      (0 :: sums 0 (List.zip lens flags)).getD j 0 ≤ loaded := by
  have hr := rising_sums (List.zip lens flags) 0
  obtain ⟨h1, h2, h3⟩ := search_end _ loaded found hr rfl (by simp) hs
  constructor
  · intro h
    exact Nat.le_trans (rising_getD _ _ _ hr h h1) h2
  · intro h
    rcases Nat.lt_or_ge (searchToEnd (0 :: sums 0 (List.zip lens flags)) loaded found) j with h4 | h4
    · have := h3 j h4 hj
      omega
    · exact h4

/-- C63: after waiting for list number `need`, more than `need` lists are loaded. -/
theorem C63_wait (lens : List Nat) (flags : List Bool) (loaded need : Nat) (found : Nat ⊕ Nat)
    (hs : IsSearch (0 :: sums 0 (List.zip lens flags)) loaded found) (hn : need < (List.zip lens flags).length)
    (hw : itemsNeeded (0 :: sums 0 (List.zip lens flags)) need < loaded ∨
      (0 :: sums 0 (List.zip lens flags)).getD (need + 1) 0 = 0) :
    need < searchToEnd (0 :: sums 0 (List.zip lens flags)) loaded found := by
  have hl : need + 1 < (0 :: sums 0 (List.zip lens flags)).length := by
    rw [List.length_cons, length_sums]; omega
  have := (C63_loaded lens flags loaded found hs (need + 1) hl).2 (by
    unfold itemsNeeded at hw
    omega)
  omega

/-- Offsets 0, 3, 5, 5, 5, 7 with 5 items loaded, and 6. -/
example : IsSearch [0, 3, 5, 5, 5, 7] 5 (.inl 3) ∧ searchToEnd [0, 3, 5, 5, 5, 7] 5 (.inl 3) = 4 ∧
    searchToEnd [0, 3, 5, 5, 5, 7] 6 (.inr 5) = 4 := by
  refine ⟨⟨by decide, by decide⟩, by decide, by decide⟩

end Verif.ListCol
