import Verif.Mini.LemmasStrings
/-!
# C86: strings written to a mini-block page are the strings read from it
-/
namespace Verif.Mini

/-- The claim: strings, in lists or not, can be written as a mini-block page, and any ranges of rows read from it
in any batches are the rows written.  (Arrow's offsets are `i32`s.) -/
def C86_strings_round_trip_statement : Prop :=
  ∀ (r : Rows (List Nat)) (ranges : List (Nat × Nat)) (batches : List Nat), RowsOk r →
    valsOf r.rows.flatten ≠ [] → (valsOf r.rows.flatten).length + 1 < 2 ^ 28 →
    (valsOf r.rows.flatten).flatten.length < 2 ^ 31 →
    RangesOk r.rows.length 0 ranges → BatchesOk (selected r.rows ranges).length batches →
    ∃ p, write binaryCodec r = some p ∧
      readPage binaryCodec p ranges batches = some ((inBatches batches (selected r.rows ranges)).map (expected r))

theorem binary_total (vals : List (List Nat)) (hne : vals ≠ []) (hn : vals.length + 1 < 2 ^ 28)
    (ht : vals.flatten.length < 2 ^ 31) (hs : ∀ s ∈ vals, s.length ≤ 2042) : ∃ c, binaryCodec.compress vals = some c := by
  have hpos := List.length_pos_iff.mpr hne
  have hol := Fsst.length_offsetsFrom 0 vals
  obtain ⟨c, rs, h, _⟩ := binaryCompress_ok vals.flatten (Fsst.offsetsFrom 0 vals) (offsetsFrom_vals_ok vals) (by omega)
    ht (by omega) (by rw [strings_offsetsFrom_zero]; exact hs)
  exact ⟨c, h⟩

/-- **C86** for columns without lists: strings of at most 2042 bytes (mini-blocks are chosen for less than 256,
primitive.rs 3558-3571), nullable or not, are written without a panic, and any ranges of rows read in any batches are
the rows written. -/
theorem C86_flat_strings_round_trip (r : Rows (List Nat)) (hr : RowsOk r) (hflat : listDepth r.layers = 0)
    (hne : valsOf r.rows.flatten ≠ []) (hn : (valsOf r.rows.flatten).length + 1 < 2 ^ 28)
    (ht : (valsOf r.rows.flatten).flatten.length < 2 ^ 31) (hs : ∀ s ∈ valsOf r.rows.flatten, s.length ≤ 2042) :
    ∃ p, write binaryCodec r = some p ∧
      ∀ (ranges : List (Nat × Nat)) (batches : List Nat), RangesOk r.rows.length 0 ranges →
        BatchesOk (selected r.rows ranges).length batches →
        readPage binaryCodec p ranges batches = some ((inBatches batches (selected r.rows ranges)).map (expected r)) := by
  obtain ⟨hf, hvis, hfill⟩ := flat_facts r hr hflat
  have hso := slotsOk_of_rows r hr hf
  obtain ⟨c, hc⟩ := binary_total _ hne hn ht hs
  obtain ⟨rs, hb, hcut⟩ := binaryCodec_cut _ hs c hc
  obtain ⟨p, hp⟩ := write_strings_total binaryCodec r (fun t ht => (hso.ok t ht).1) hvis c hc rs _ hb hcut
  exact ⟨p, hp, fun ranges batches hrg hbt => page_ok binaryCodec _ binaryCodec_ok r hr hf hs c hc p hp ranges batches hrg
    (fun x _ hx k => hfill c.chunks (x.1 - 1) k) hbt⟩

/-- **C86** for columns without lists, compressed with FSST: whatever sample the symbol table is made from, strings of at
most 1021 bytes are either refused by FSST (an error), or written, and any ranges of rows read in any batches are the
rows written. -/
theorem C86_flat_fsst_round_trip (o : Fsst.Oracle) (r : Rows (List Nat)) (hr : RowsOk r) (hflat : listDepth r.layers = 0)
    (hne : valsOf r.rows.flatten ≠ []) (hn : (valsOf r.rows.flatten).length + 1 < 2 ^ 28)
    (ht : 2 * (valsOf r.rows.flatten).flatten.length < 2 ^ 31) (hs : ∀ s ∈ valsOf r.rows.flatten, s.length ≤ 1021)
    (hbytes : ∀ s ∈ valsOf r.rows.flatten, ∀ b ∈ s, b < 256) :
    Fsst.compress o (valsOf r.rows.flatten).flatten (Fsst.offsetsFrom 0 (valsOf r.rows.flatten)) = .error .refused ∨
    ∃ table p, write (fsstCodec o table) r = some p ∧
      ∀ (ranges : List (Nat × Nat)) (batches : List Nat), RangesOk r.rows.length 0 ranges →
        BatchesOk (selected r.rows ranges).length batches →
        readPage (fsstCodec o table) p ranges batches =
          some ((inBatches batches (selected r.rows ranges)).map (expected r)) := by
  obtain ⟨hf, hvis, hfill⟩ := flat_facts r hr hflat
  have hso := slotsOk_of_rows r hr hf
  have hao : Fsst.ArrayOk (valsOf r.rows.flatten).flatten (Fsst.offsetsFrom 0 (valsOf r.rows.flatten)) := ⟨by
    intro b hbm
    obtain ⟨s, h1, h2⟩ := List.mem_flatten.mp hbm
    exact hbytes s h1 b h2, offsetsFrom_vals_ok _⟩
  rcases Fsst.C84_fsst_round_trip o _ _ hao ht with he | ⟨fc, he, hlen, _⟩
  · exact Or.inl he
  right
  obtain ⟨l1, l2, l3, l4⟩ := fsst_lengths o _ _ hao ht fc he
  have hpos := List.length_pos_iff.mpr hne
  have hol := Fsst.length_offsetsFrom 0 (valsOf r.rows.flatten)
  rw [strings_offsetsFrom_zero] at l4
  obtain ⟨c, _, hc0, _⟩ := binaryCompress_ok fc.bytes fc.offsets l1 (by omega) (by omega) (by omega) (fun s h => by
    have := l4 1021 hs s h
    omega)
  have hc : (fsstCodec o fc.table).compress (valsOf r.rows.flatten) = some c := by
    show fsstCompress o fc.table (valsOf r.rows.flatten) = some c
    rw [fsstCompress, if_pos ht, he]
    simp only [if_true]
    exact hc0
  obtain ⟨rs, S, hb, hcut⟩ := fsstCodec_cut o fc.table _ hs hbytes c hc
  obtain ⟨p, hp⟩ := write_strings_total _ r (fun t ht => (hso.ok t ht).1) hvis c hc rs _ hb hcut
  exact ⟨fc.table, p, hp, fun ranges batches hrg hbt => page_ok _ _ (fsstCodec_ok o fc.table) r hr hf
    (fun s h => ⟨hs s h, hbytes s h⟩) c hc p hp ranges batches hrg (fun x _ hx k => hfill c.chunks (x.1 - 1) k) hbt⟩

/-- **C86**, what can be proved of lists of strings: if no list is null or empty they are written without a panic (no
chunk is left without values, as it may be with fixed width values), and ranges that do not start right after a row
that fills a chunk are read back. -/
theorem C86_string_lists_partial (r : Rows (List Nat)) (hr : RowsOk r)
    (hvis : ∀ row ∈ r.rows, ∀ s ∈ row, s.val.isSome = true)
    (hne : valsOf r.rows.flatten ≠ []) (hn : (valsOf r.rows.flatten).length + 1 < 2 ^ 28)
    (ht : (valsOf r.rows.flatten).flatten.length < 2 ^ 31) (hs : ∀ s ∈ valsOf r.rows.flatten, s.length ≤ 2042) :
    ∃ p c, write binaryCodec r = some p ∧ binaryCodec.compress (valsOf r.rows.flatten) = some c ∧
      ∀ (ranges : List (Nat × Nat)) (batches : List Nat), RangesOk r.rows.length 0 ranges →
        (∀ x ∈ ranges, 0 < x.1 → ∀ k, ¬ Fills c.chunks r.rows (x.1 - 1) k) →
        BatchesOk (selected r.rows ranges).length batches →
        readPage binaryCodec p ranges batches = some ((inBatches batches (selected r.rows ranges)).map (expected r)) := by
  have hf : FlatLists r := by
    intro row hrow s hs hn
    have := hvis row hrow s hs
    rw [hn] at this; exact absurd this (by simp)
  have hso := slotsOk_of_rows r hr hf
  have hvis' : ∀ t ∈ r.rows.flatten, t.val.isSome = true := by
    intro t ht
    obtain ⟨row, h1, h2⟩ := List.mem_flatten.mp ht
    exact hvis row h1 t h2
  obtain ⟨c, hc⟩ := binary_total _ hne hn ht hs
  obtain ⟨rs, hb, hcut⟩ := binaryCodec_cut _ hs c hc
  obtain ⟨p, hp⟩ := write_strings_total binaryCodec r (fun t ht => (hso.ok t ht).1) hvis' c hc rs _ hb hcut
  exact ⟨p, c, hp, hc, fun ranges batches hrg hst hbt =>
    page_ok binaryCodec _ binaryCodec_ok r hr hf hs c hc p hp ranges batches hrg hst hbt⟩

/-- Strings as they are stored are a codec in the sense of C85, and so are those compressed with FSST: the theorems
for lists with null and empty lists hold for both. -/
theorem C86_string_codecs : CodecOk binaryCodec (fun v => v.length ≤ 2042) ∧
    ∀ o table, CodecOk (fsstCodec o table) (fun v => v.length ≤ 1021 ∧ ∀ b ∈ v, b < 256) :=
  ⟨binaryCodec_ok, fsstCodec_ok⟩

/-! ### Where the claim fails -/

/-- Three nullable strings of 3000 bytes. -/
def wideStrings : Rows (List Nat) :=
  ⟨[.nullableItem], true, List.replicate 3 [⟨0, 0, some (List.replicate 3000 65)⟩]⟩

instance decSlotOk' {V : Type} (r : Rows V) (s : Slot V) : Decidable (SlotOk r s) := by
  unfold SlotOk; exact inferInstance

instance decRowOk' {V : Type} (r : Rows V) (row : List (Slot V)) : Decidable (RowOk r row) := by
  cases row with
  | nil => exact inferInstanceAs (Decidable False)
  | cons s rest => exact inferInstanceAs (Decidable (_ ∧ _ ∧ _))

theorem wideStrings_ok : RowsOk wideStrings := ⟨by decide +kernel, by decide +kernel, by decide +kernel⟩

/-- **C86 fails** for wide strings if the user asks for mini-blocks (field metadata `lance-encoding:structural-encoding`):
a chunk of one string that is not the last is taken for the last one, and the levels of all other strings are put into
it.  They cannot be read back. -/
theorem C86_wide_strings_violated :
    ((write binaryCodec wideStrings).map fun p => (readPage binaryCodec p [(0, 3)] [3]).isSome) = some false := by
  decide +kernel

theorem C86_strings_round_trip_violated : ¬ C86_strings_round_trip_statement := by
  intro h
  obtain ⟨p, h1, h2⟩ := h wideStrings [(0, 3)] [3] wideStrings_ok (by decide +kernel) (by decide +kernel) (by decide +kernel)
    ⟨by omega, by omega, by decide +kernel, trivial⟩ ⟨by decide, by decide +kernel⟩
  have h3 := C86_wide_strings_violated
  rw [h1] at h3
  simp only [Option.map_some, Option.some.injEq] at h3
  rw [h2] at h3
  simp at h3

/-! ### The hypotheses can be met -/

/-- A long list of strings of different lengths, a null among them, over three chunks. -/
def someStrings : Rows (List Nat) :=
  ⟨[.nullableItem], true, (List.range 40).map fun i =>
    [if i % 7 = 3 then ⟨0, 1, some []⟩ else ⟨0, 0, some (List.replicate (200 + i) (65 + i))⟩]⟩

theorem C86_nonvacuous :
    RowsOk someStrings ∧ listDepth someStrings.layers = 0 ∧ valsOf someStrings.rows.flatten ≠ [] ∧
      (valsOf someStrings.rows.flatten).length + 1 < 2 ^ 28 ∧
      2 * (valsOf someStrings.rows.flatten).flatten.length < 2 ^ 31 ∧
      (∀ s ∈ valsOf someStrings.rows.flatten, s.length ≤ 1021) ∧
      (∀ s ∈ valsOf someStrings.rows.flatten, ∀ b ∈ s, b < 256) ∧
      RangesOk someStrings.rows.length 0 [(3, 20), (30, 40)] ∧
      BatchesOk (selected someStrings.rows [(3, 20), (30, 40)]).length [9, 18] ∧
      ((binaryCodec.compress (valsOf someStrings.rows.flatten)).map fun c => c.chunks.map Chunk.logNumValues) =
        some [4, 4, 0] := by
  refine ⟨⟨by decide +kernel, by decide +kernel, by decide +kernel⟩, rfl, by decide +kernel, by decide +kernel,
    by decide +kernel, by decide +kernel, by decide +kernel,
    ⟨by omega, by omega, by decide +kernel, by omega, by omega, by decide +kernel, trivial⟩, ⟨by decide, by decide +kernel⟩,
    by decide +kernel⟩

/-- Lists of one and of forty strings; the second is cut by the end of a chunk. -/
def stringLists : Rows (List Nat) :=
  ⟨[.allValidItem, .allValidList], false, [[⟨1, 0, some [65]⟩],
    ⟨1, 0, some (List.replicate 200 66)⟩ :: List.replicate 39 ⟨0, 0, some (List.replicate 200 66)⟩]⟩

theorem C86_lists_nonvacuous :
    RowsOk stringLists ∧ (∀ row ∈ stringLists.rows, ∀ s ∈ row, s.val.isSome = true) ∧ valsOf stringLists.rows.flatten ≠ [] ∧
      (∀ s ∈ valsOf stringLists.rows.flatten, s.length ≤ 2042) ∧
      ((binaryCodec.compress (valsOf stringLists.rows.flatten)).map fun c => c.chunks.map Chunk.logNumValues) =
        some [4, 4, 0] ∧
      RangesOk stringLists.rows.length 0 [(1, 2)] ∧ BatchesOk (selected stringLists.rows [(1, 2)]).length [1] := by
  refine ⟨⟨by decide +kernel, by decide +kernel, by decide +kernel⟩, by decide +kernel, by decide +kernel, by decide +kernel,
    by decide +kernel, ⟨by omega, by omega, by decide +kernel, trivial⟩, ⟨by decide, by decide +kernel⟩⟩

end Verif.Mini
