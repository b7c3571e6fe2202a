import Verif.Mini.LemmasValue
/-!
# C85: rows written to a mini-block page are the rows read from it
-/
namespace Verif.Mini

/-- The claim: fixed width values, in lists or not, can be written as a page, and any ranges of rows read
from it in any batches are the rows written.  There is at least one value: other pages are not mini-block pages
(primitive.rs 4399-4404). -/
def C85_pages_round_trip_statement : Prop :=
  ∀ (bpv : Nat) (r : Rows (List Nat)) (ranges : List (Nat × Nat)) (batches : List Nat),
    0 < bpv → 2 * bpv < 8186 → RowsOk r → valsOf r.rows.flatten ≠ [] → (∀ v ∈ valsOf r.rows.flatten, v.length = bpv) →
    RangesOk r.rows.length 0 ranges → BatchesOk (selected r.rows ranges).length batches →
    ∃ p, write (valueCodec bpv) r = some p ∧
      readPage (valueCodec bpv) p ranges batches = some ((inBatches batches (selected r.rows ranges)).map (expected r))

/-! ### Columns without lists -/

/-- **C85** for columns without lists: the claim holds as it stands.  Writing never panics, and reading any
ranges of rows in any batches gives back exactly the levels and values of those rows. -/
theorem C85_flat_pages_round_trip (bpv : Nat) (hb : 2 * bpv < 8186) (r : Rows (List Nat)) (hr : RowsOk r)
    (hflat : listDepth r.layers = 0) (hv : ∀ v ∈ valsOf r.rows.flatten, v.length = bpv) :
    ∃ p, write (valueCodec bpv) r = some p ∧
      ∀ (ranges : List (Nat × Nat)) (batches : List Nat), RangesOk r.rows.length 0 ranges →
        BatchesOk (selected r.rows ranges).length batches →
        readPage (valueCodec bpv) p ranges batches =
          some ((inBatches batches (selected r.rows ranges)).map (expected r)) := by
  obtain ⟨hf, hvis, hfill⟩ := flat_facts r hr hflat
  have hso := slotsOk_of_rows r hr hf
  obtain ⟨p, hp⟩ := write_values_total bpv hb r (fun t ht => (hso.ok t ht).1) hvis hv (Or.inl hflat)
  refine ⟨p, hp, ?_⟩
  intro ranges batches hrg hbt
  obtain ⟨c, hcomp⟩ := Option.isSome_iff_exists.mp (valueCompress_total bpv hb _ hv)
  exact page_ok (valueCodec bpv) _ (valueCodec_ok bpv) r hr hf hv c hcomp p hp ranges batches hrg
    (fun x _ hx k => hfill c.chunks (x.1 - 1) k) hbt

/-! ### Columns with lists -/

/-- **C85**, what can be proved for columns with lists, and any codec that gives its values back.  What is
missing of the claim: null and empty lists may only appear as whole rows; no range may start right after a row
that reaches from before a chunk to its end; and the page is one that the writer managed to write. -/
theorem C85_pages_round_trip_partial {V : Type} (codec : Codec V) (P : V → Prop) (hc : CodecOk codec P) (r : Rows V)
    (hr : RowsOk r) (hf : FlatLists r) (hP : ∀ v ∈ valsOf r.rows.flatten, P v) (c : Compressed)
    (hcomp : codec.compress (valsOf r.rows.flatten) = some c) (p : Page) (hw : write codec r = some p)
    (ranges : List (Nat × Nat)) (batches : List Nat) (hrange : RangesOk r.rows.length 0 ranges)
    (hst : ∀ x ∈ ranges, 0 < x.1 → ∀ k, ¬ Fills c.chunks r.rows (x.1 - 1) k)
    (hb : BatchesOk (selected r.rows ranges).length batches) :
    readPage codec p ranges batches = some ((inBatches batches (selected r.rows ranges)).map (expected r)) :=
  page_ok codec P hc r hr hf hP c hcomp p hw ranges batches hrange hst hb

/-- The codec of fixed width values is such a codec. -/
theorem C85_fixed_width_codec (bpv : Nat) : CodecOk (valueCodec bpv) (fun v => v.length = bpv) := valueCodec_ok bpv

/-- **C85**, when lists can be written: if no list is null or empty and the values do not fill all chunks (so
that no chunk is left without values). -/
theorem C85_write_lists_partial (bpv : Nat) (hb : 2 * bpv < 8186) (r : Rows (List Nat)) (hr : RowsOk r)
    (hvis : ∀ row ∈ r.rows, ∀ s ∈ row, s.val.isSome = true) (hv : ∀ v ∈ valsOf r.rows.flatten, v.length = bpv)
    (hne : ∀ c, valueCompress bpv (valsOf r.rows.flatten) = some c → ∀ x ∈ c.chunks, x.numBytes ≠ 0) :
    ∃ p, write (valueCodec bpv) r = some p := by
  have hf : FlatLists r := by
    intro row hrow s hs hn
    have := hvis row hrow s hs
    rw [hn] at this; exact absurd this (by simp)
  refine write_values_total bpv hb r (fun t ht => ((slotsOk_of_rows r hr hf).ok t ht).1) ?_ hv (Or.inr hne)
  intro t ht
  obtain ⟨row, h1, h2⟩ := List.mem_flatten.mp ht
  exact hvis row h1 t h2

/-! ### Where the claim fails -/

/-- A value of `n` bytes. -/
def byteVal (n x : Nat) : List Nat := List.replicate n x

/-- One list of `n` values of 128 bytes as a row. -/
def listRow (n : Nat) : List (Slot (List Nat)) :=
  ⟨1, 0, some (byteVal 128 1)⟩ :: List.replicate (n - 1) ⟨0, 0, some (byteVal 128 1)⟩

/-- A list of 65 values and one of 1 value: with 32 values in a chunk, the first list fills the second chunk. -/
def longList : Rows (List Nat) := ⟨[.allValidItem, .allValidList], false, [listRow 65, listRow 1]⟩

/-- A list of 32 values, which fills a chunk. -/
def fullList : Rows (List Nat) := ⟨[.allValidItem, .allValidList], false, [listRow 32]⟩

/-- A list of one value and many empty lists. -/
def emptyLists : Rows (List Nat) :=
  ⟨[.allValidItem, .emptyableList], true, [⟨1, 0, some (byteVal 3 1)⟩] :: List.replicate 4096 [⟨1, 1, none⟩]⟩

/-- Lists of lists: `[[1], [], [2]]`, `[[3]]` and `[[4]]`, where each value is three bytes (values of one byte would be bit
packed, encoder.rs 811-823). -/
def nestedLists : Rows (List Nat) :=
  ⟨[.allValidItem, .emptyableList, .allValidList], true,
    [[⟨2, 0, some [1, 1, 1]⟩, ⟨1, 1, none⟩, ⟨1, 0, some [2, 2, 2]⟩], [⟨2, 0, some [3, 3, 3]⟩], [⟨2, 0, some [4, 4, 4]⟩]]⟩

theorem rowOk_listRow (r : Rows (List Nat)) (h : listDepth r.layers = 1) (n : Nat) : RowOk r (listRow n) := by
  have hs : ∀ rep, rep < 65536 → SlotOk r ⟨rep, 0, some (byteVal 128 1)⟩ := by
    intro rep hrep
    exact ⟨by simp, fun _ => rfl, hrep, by simp⟩
  refine ⟨h.symm, ?_, ?_⟩
  · intro t ht
    rw [List.eq_of_mem_replicate ht, h]
    simp
  · intro t ht
    rcases List.mem_cons.mp ht with h1 | h1
    · rw [h1]; exact hs 1 (by omega)
    · rw [List.eq_of_mem_replicate h1]; exact hs 0 (by omega)

theorem longList_ok : RowsOk longList := by
  refine ⟨?_, by simp [longList], by simp [longList]⟩
  intro row hrow
  simp only [longList, List.mem_cons, List.not_mem_nil, or_false] at hrow
  rcases hrow with h | h <;> (rw [h]; exact rowOk_listRow longList rfl _)

theorem fullList_ok : RowsOk fullList := by
  refine ⟨?_, by simp [fullList], by simp [fullList]⟩
  intro row hrow
  simp only [fullList, List.mem_cons, List.not_mem_nil, or_false] at hrow
  rw [hrow]; exact rowOk_listRow fullList rfl _

instance decSlotOk {V : Type} (r : Rows V) (s : Slot V) : Decidable (SlotOk r s) := by
  unfold SlotOk; exact inferInstance

instance decRowOk {V : Type} (r : Rows V) (row : List (Slot V)) : Decidable (RowOk r row) := by
  cases row with
  | nil => exact inferInstanceAs (Decidable False)
  | cons s rest => exact inferInstanceAs (Decidable (_ ∧ _ ∧ _))

instance decFlatLists {V : Type} [DecidableEq V] (r : Rows V) : Decidable (FlatLists r) := by
  unfold FlatLists; exact inferInstance

theorem emptyLists_ok : RowsOk emptyLists := by
  have hl : emptyLists.rows.length = 4097 := by
    show (_ :: List.replicate 4096 _).length = 4097
    rw [List.length_cons, List.length_replicate]
  refine ⟨?_, List.cons_ne_nil _ _, by rw [hl]; decide⟩
  intro row hrow
  rcases List.mem_cons.mp hrow with h | h
  · rw [h]; decide +kernel
  · rw [List.eq_of_mem_replicate h]; decide +kernel

theorem nestedLists_ok : RowsOk nestedLists := ⟨by decide, by decide, by decide⟩

/-- **C85 fails** (1): a range that starts right after a list that fills a chunk cannot be read (primitive.rs 429:
the search of the index returns a chunk in which no row starts, and nothing is left to take from it). -/
theorem C85_range_after_long_list_violated :
    ((write (valueCodec 128) longList).map fun p => (readPage (valueCodec 128) p [(1, 2)] [1]).isSome) = some false := by
  decide +kernel

/-- **C85 fails** (2): lists whose values fill all chunks cannot be written (an empty last chunk is made, and the
first level of its levels is looked at). -/
theorem C85_full_chunk_violated : RowsOk fullList ∧ write (valueCodec 128) fullList = none :=
  ⟨fullList_ok, by decide +kernel⟩

/-- **C85 fails** (3): many empty (or null) lists cannot be written (their levels go into one chunk, which gets
longer than 16 KiB). -/
theorem C85_many_empty_lists_violated : RowsOk emptyLists ∧ write (valueCodec 3) emptyLists = none :=
  ⟨emptyLists_ok, by decide +kernel⟩

/-- **C85 fails** (4): with lists of lists other rows are read than were asked for: row 1, which is `[[3]]`, is
read as `[[4]]`. -/
theorem C85_nested_lists_violated :
    ((write (valueCodec 3) nestedLists).bind fun p => readPage (valueCodec 3) p [(1, 2)] [1])
      = some [⟨some [2], some [0], [[4, 4, 4]]⟩] ∧
    expected nestedLists [[⟨2, 0, some [3, 3, 3]⟩]] = ⟨some [2], some [0], [[3, 3, 3]]⟩ ∧
    selected nestedLists.rows [(1, 2)] = [[⟨2, 0, some [3, 3, 3]⟩]] := by decide +kernel

/-- The claim does not hold. -/
theorem C85_pages_round_trip_violated : ¬ C85_pages_round_trip_statement := by
  intro h
  obtain ⟨p, h1, h2⟩ := h 3 nestedLists [(1, 2)] [1] (by omega) (by omega) nestedLists_ok (by decide) (by decide)
    ⟨by omega, by omega, by decide, trivial⟩ ⟨by decide, by decide⟩
  have h3 := C85_nested_lists_violated.1
  rw [h1] at h3
  simp only [Option.bind_some] at h3
  rw [h2] at h3
  exact absurd h3 (by decide)

/-- The claim does not hold for lists that are not nested, either. -/
theorem C85_lists_round_trip_violated :
    ¬ ∀ (bpv : Nat) (r : Rows (List Nat)) (ranges : List (Nat × Nat)) (batches : List Nat),
      0 < bpv → 2 * bpv < 8186 → RowsOk r → FlatLists r → (∀ v ∈ valsOf r.rows.flatten, v.length = bpv) →
      RangesOk r.rows.length 0 ranges → BatchesOk (selected r.rows ranges).length batches →
      ∀ p, write (valueCodec bpv) r = some p →
        readPage (valueCodec bpv) p ranges batches = some ((inBatches batches (selected r.rows ranges)).map (expected r)) := by
  intro h
  have h3 := C85_range_after_long_list_violated
  cases hw : write (valueCodec 128) longList with
  | none => rw [hw] at h3; simp at h3
  | some p =>
    have := h 128 longList [(1, 2)] [1] (by omega) (by omega) longList_ok (by decide +kernel)
      (by decide +kernel) ⟨by omega, by omega, by decide, trivial⟩ ⟨by decide, by decide +kernel⟩ p hw
    rw [hw] at h3
    simp only [Option.map_some, Option.some.injEq] at h3
    rw [this] at h3
    simp at h3

/-! ### The hypotheses can be met -/

/-- Lists of 3, 40 and 2 values, and a null list between them; the second list is cut by the end of a chunk. -/
def someLists : Rows (List Nat) :=
  ⟨[.allValidItem, .nullableList], true, [listRow 3, [⟨1, 1, none⟩], listRow 40, listRow 2]⟩

theorem someLists_ok : RowsOk someLists := ⟨by decide +kernel, by decide, by decide⟩

example : FlatLists someLists := by decide +kernel
example : ∀ v ∈ valsOf someLists.rows.flatten, v.length = 128 := by decide +kernel
example : (valueCompress 128 (valsOf someLists.rows.flatten)).map (·.chunks) = some [⟨4096, 5⟩, ⟨1664, 0⟩] := by decide +kernel

theorem someLists_notFills (x k : Nat) : ¬ Fills [⟨4096, 5⟩, ⟨1664, 0⟩] someLists.rows x k := by
  rintro ⟨h1, h2, _⟩
  have : k = 0 := by simp only [List.length_cons, List.length_nil] at h1; omega
  subst this
  simp [valuesBefore] at h2

/-- Rows 1 and 2, and then row 3, read as batches of two rows and of one. -/
theorem C85_nonvacuous :
    ∃ p, write (valueCodec 128) someLists = some p ∧
      readPage (valueCodec 128) p [(1, 3), (3, 4)] [2, 1] =
        some [expected someLists [[⟨1, 1, none⟩], listRow 40], expected someLists [listRow 2]] := by
  have hs : (write (valueCodec 128) someLists).isSome = true := by decide +kernel
  obtain ⟨p, hp⟩ := Option.isSome_iff_exists.mp hs
  refine ⟨p, hp, ?_⟩
  have hcm : ((valueCodec 128).compress (valsOf someLists.rows.flatten)).map (·.chunks) = some [⟨4096, 5⟩, ⟨1664, 0⟩] := by
    decide +kernel
  cases hc : (valueCodec 128).compress (valsOf someLists.rows.flatten) with
  | none => rw [hc] at hcm; simp at hcm
  | some c =>
    rw [hc] at hcm
    simp only [Option.map_some, Option.some.injEq] at hcm
    have := C85_pages_round_trip_partial (valueCodec 128) _ (C85_fixed_width_codec 128) someLists someLists_ok
      (by decide +kernel) (by decide +kernel) c hc p hp [(1, 3), (3, 4)] [2, 1]
      ⟨by omega, by omega, by decide, by omega, by omega, by decide, trivial⟩
      (fun x _ _ k => by rw [hcm]; exact someLists_notFills _ k)
      ⟨by decide, by decide +kernel⟩
    rw [this]
    rfl

/-- Nullable values without lists, in three chunks. -/
def someValues : Rows (List Nat) :=
  ⟨[.nullableItem], true, List.replicate 70 [⟨0, 1, some (byteVal 128 0)⟩] ++ [[⟨0, 0, some (byteVal 128 7)⟩]]⟩

theorem C85_flat_nonvacuous :
    RowsOk someValues ∧ listDepth someValues.layers = 0 ∧ (∀ v ∈ valsOf someValues.rows.flatten, v.length = 128) ∧
      RangesOk someValues.rows.length 0 [(31, 65), (70, 71)] ∧
      BatchesOk (selected someValues.rows [(31, 65), (70, 71)]).length [20, 15] := by
  refine ⟨⟨by decide +kernel, by decide +kernel, by decide +kernel⟩, rfl, by decide +kernel, ?_, by decide, by decide +kernel⟩
  exact ⟨by omega, by omega, by decide +kernel, by omega, by omega, by decide +kernel, trivial⟩

end Verif.Mini
