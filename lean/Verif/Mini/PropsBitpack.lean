import Verif.Mini.LemmasBitpack
import Verif.Mini.PropsMini
/-!
# C87: integers that are bit packed are read as they were written
-/
namespace Verif.Mini

/-- The claim: fixed width values, bit packed if the writer chooses so, can be written as a mini-block page, in lists or
not, and any ranges of rows read from it in any batches are the rows written. -/
def C87_fixed_width_round_trip_statement : Prop :=
  ∀ (bpv : Nat) (r : Rows (List Nat)) (ranges : List (Nat × Nat)) (batches : List Nat), 0 < bpv → 2 * bpv < 8186 → RowsOk r →
    (∀ v ∈ valsOf r.rows.flatten, v.length = bpv ∧ ∀ b ∈ v, b < 256) → valsOf r.rows.flatten ≠ [] →
    RangesOk r.rows.length 0 ranges → BatchesOk (selected r.rows ranges).length batches →
    ∃ p, write (fixedCodec bpv (valsOf r.rows.flatten)) r = some p ∧
      readPage (fixedCodec bpv (valsOf r.rows.flatten)) p ranges batches =
        some ((inBatches batches (selected r.rows ranges)).map (expected r))

/-- FastLanes: 1024 integers of any of the four types, each of at most `W` bits, are unpacked as they were packed, and they
take `1024 * W` bits. -/
theorem C87_fastlanes_round_trip (T W : Nat) (hT : T = 8 ∨ T = 16 ∨ T = 32 ∨ T = 64) (hW0 : 0 < W) (hW : W ≤ T)
    (input : List Nat) (hlen : input.length = 1024) (hsmall : ∀ x ∈ input, x < 2 ^ W) :
    ∃ packed, pack T W input = some packed ∧ packed.length * T = 1024 * W ∧ unpack T W packed = some input := by
  obtain ⟨packed, h1, h2, h3⟩ := unpack_pack_words hT W hW0 hW input hlen hsmall
  refine ⟨packed, h1, ?_, h3⟩
  obtain ⟨_, _, h4⟩ := word_lanes hT
  rw [h2, Nat.mul_right_comm, h4]

/-- Packed elements fit the integer type, so that they are stored without loss. -/
theorem C87_packed_fits (T W : Nat) (hT : T = 8 ∨ T = 16 ∨ T = 32 ∨ T = 64) (hW0 : 0 < W) (hW : W ≤ T)
    (input packed : List Nat) (h : ∀ x ∈ input, x < 2 ^ T) (hp : pack T W input = some packed) : ∀ x ∈ packed, x < 2 ^ T :=
  pack_lt hT W hW0 hW input h packed hp

/-- Bit packing is a codec in the sense of C85, and so is whatever the writer chooses for fixed width values: the
theorems for lists with null and empty lists hold for both. -/
theorem C87_fixed_codecs (bpv : Nat) : CodecOk (bitpackCodec bpv) (fun v => v.length = bpv ∧ ∀ b ∈ v, b < 256) ∧
    ∀ vals, CodecOk (fixedCodec bpv vals) (fun v => v.length = bpv ∧ ∀ b ∈ v, b < 256) := by
  refine ⟨bitpackCodec_ok bpv, ?_⟩
  intro vals
  unfold fixedCodec
  split
  · exact bitpackCodec_ok bpv
  · intro vs c h hc
    exact valueCodec_ok bpv vs c (fun v hv => (h v hv).1) hc

/-- **C87** for columns without lists: values of any width below 4093 bytes, nullable or not, are written with the codec
that the writer chooses, without a panic, and any ranges of rows read in any batches are the rows written. -/
theorem C87_flat_fixed_width_round_trip (bpv : Nat) (hb : 2 * bpv < 8186) (r : Rows (List Nat)) (hr : RowsOk r)
    (hflat : listDepth r.layers = 0) (hv : ∀ v ∈ valsOf r.rows.flatten, v.length = bpv ∧ ∀ b ∈ v, b < 256)
    (hne : valsOf r.rows.flatten ≠ []) :
    ∃ p, write (fixedCodec bpv (valsOf r.rows.flatten)) r = some p ∧
      ∀ (ranges : List (Nat × Nat)) (batches : List Nat), RangesOk r.rows.length 0 ranges →
        BatchesOk (selected r.rows ranges).length batches →
        readPage (fixedCodec bpv (valsOf r.rows.flatten)) p ranges batches =
          some ((inBatches batches (selected r.rows ranges)).map (expected r)) := by
  unfold fixedCodec
  split
  · rename_i h
    obtain ⟨hf, hvis, hfill⟩ := flat_facts r hr hflat
    have hso := slotsOk_of_rows r hr hf
    obtain ⟨c, hc⟩ := bitpack_total bpv h.1 _ hv hne h.2
    obtain ⟨p, hp⟩ := write_bitpack_total bpv r (fun t ht => (hso.ok t ht).1) hvis hv c hc
    exact ⟨p, hp, fun ranges batches hrg hbt => page_ok _ _ (bitpackCodec_ok bpv) r hr hf hv c hc p hp ranges batches hrg
      (fun x _ hx k => hfill c.chunks (x.1 - 1) k) hbt⟩
  · exact C85_flat_pages_round_trip bpv hb r hr hflat (fun v h => (hv v h).1)

/-- **C87**, what can be proved of lists: integers of 1, 2, 4 or 8 bytes in lists that are not null and not empty are
written without a panic if no 1024 values in a row are zero, and ranges that do not start right after a row that fills a
chunk are read back. -/
theorem C87_integer_lists_partial (bpv : Nat) (hb : bpv = 1 ∨ bpv = 2 ∨ bpv = 4 ∨ bpv = 8) (r : Rows (List Nat)) (hr : RowsOk r)
    (hvis : ∀ row ∈ r.rows, ∀ s ∈ row, s.val.isSome = true)
    (hv : ∀ v ∈ valsOf r.rows.flatten, v.length = bpv ∧ ∀ b ∈ v, b < 256) (hne : valsOf r.rows.flatten ≠ [])
    (hz : ∀ chunk ∈ chunks1024 (valsOf r.rows.flatten).length ((valsOf r.rows.flatten).map ofLe), bitWidth chunk ≠ 0) :
    ∃ p c, write (fixedCodec bpv (valsOf r.rows.flatten)) r = some p ∧
      (bitpackCodec bpv).compress (valsOf r.rows.flatten) = some c ∧
      ∀ (ranges : List (Nat × Nat)) (batches : List Nat), RangesOk r.rows.length 0 ranges →
        (∀ x ∈ ranges, 0 < x.1 → ∀ k, ¬ Fills c.chunks r.rows (x.1 - 1) k) →
        BatchesOk (selected r.rows ranges).length batches →
        readPage (fixedCodec bpv (valsOf r.rows.flatten)) p ranges batches =
          some ((inBatches batches (selected r.rows ranges)).map (expected r)) := by
  have hf : FlatLists r := by
    intro row hrow s hs hn
    have := hvis row hrow s hs
    rw [hn] at this; exact absurd this (by simp)
  have hso := slotsOk_of_rows r hr hf
  have hvis' : ∀ t ∈ r.rows.flatten, t.val.isSome = true := by
    intro t ht
    obtain ⟨row, h1, h2⟩ := List.mem_flatten.mp ht
    exact hvis row h1 t h2
  unfold fixedCodec
  rw [if_pos ⟨hb, hz⟩]
  obtain ⟨c, hc⟩ := bitpack_total bpv hb _ hv hne hz
  obtain ⟨p, hp⟩ := write_bitpack_total bpv r (fun t ht => (hso.ok t ht).1) hvis' hv c hc
  exact ⟨p, c, hp, hc, fun ranges batches hrg hst hbt =>
    page_ok _ _ (bitpackCodec_ok bpv) r hr hf hv c hc p hp ranges batches hrg hst hbt⟩

/-! ### Where the claim fails -/

/-- Lists of lists of bytes: `[[1], [], [2]]`, `[[3]]` and `[[4]]`. -/
def nestedBytes : Rows (List Nat) :=
  ⟨[.allValidItem, .emptyableList, .allValidList], true,
    [[⟨2, 0, some [1]⟩, ⟨1, 1, none⟩, ⟨1, 0, some [2]⟩], [⟨2, 0, some [3]⟩], [⟨2, 0, some [4]⟩]]⟩

/-- The bytes of `nestedBytes` are bit packed. -/
theorem nestedBytes_packed : fixedCodec 1 (valsOf nestedBytes.rows.flatten) = bitpackCodec 1 := by
  unfold fixedCodec
  rw [if_pos ⟨Or.inl rfl, by decide⟩]

/-- **C87 fails** for lists of lists, as C85 does: row 1, which is `[[3]]`, is read as `[[4]]`. -/
theorem C87_nested_lists_violated :
    ((write (bitpackCodec 1) nestedBytes).bind fun p => readPage (bitpackCodec 1) p [(1, 2)] [1])
      = some [⟨some [2], some [0], [[4]]⟩] := by
  decide +kernel

theorem C87_fixed_width_round_trip_violated : ¬ C87_fixed_width_round_trip_statement := by
  intro h
  obtain ⟨p, h1, h2⟩ := h 1 nestedBytes [(1, 2)] [1] (by omega) (by omega) ⟨by decide, by decide, by decide⟩ (by decide) (by decide)
    ⟨by omega, by omega, by decide, trivial⟩ ⟨by decide, by decide⟩
  have h3 := C87_nested_lists_violated
  rw [nestedBytes_packed] at h1 h2
  rw [h1] at h3
  simp only [Option.bind_some] at h3
  rw [h2] at h3
  exact absurd h3 (by decide)

/-! ### The hypotheses can be met -/

/-- `n` nullable 16 bit integers. -/
def shortRows (n : Nat) : List (List (Slot (List Nat))) :=
  (List.range n).map fun i => [⟨0, if i % 5 = 0 then 1 else 0, some (leBytes 2 (1 + i % 1000))⟩]

theorem shortRows_length (n : Nat) : (shortRows n).length = n := by
  rw [shortRows, List.length_map, List.length_range]

def shorts (n : Nat) : Rows (List Nat) := ⟨[.nullableItem], true, shortRows n⟩

theorem shorts_ok (n : Nat) (h0 : 0 < n) (h1 : n < 2 ^ 64) : RowsOk (shorts n) := by
  have hl := shortRows_length n
  refine ⟨?_, ?_, ?_⟩
  · intro row hrow
    obtain ⟨i, _, rfl⟩ := List.mem_map.mp hrow
    refine ⟨rfl, by simp, ?_⟩
    intro t ht
    rw [List.mem_singleton] at ht
    subst ht
    refine ⟨⟨fun _ => Or.inl rfl, fun _ => rfl⟩, fun h => absurd h (by simp [shorts]), by simp, ?_⟩
    dsimp only
    split <;> omega
  · intro h
    rw [show shortRows n = [] from h] at hl
    simp at hl
    omega
  · show (shortRows n).length < _
    rw [hl]
    omega

theorem shorts_length (n : Nat) : (shorts n).rows.length = n := shortRows_length n

/-- 1100 of them, in two chunks of different widths. -/
theorem C87_nonvacuous :
    RowsOk (shorts 1100) ∧ listDepth (shorts 1100).layers = 0 ∧ valsOf (shorts 1100).rows.flatten ≠ [] ∧
      (valsOf (shorts 1100).rows.flatten).all (fun v => decide (v.length = 2) && v.all (· < 256)) = true ∧
      (chunks1024 1100 ((valsOf (shorts 1100).rows.flatten).map ofLe)).map bitWidth = [10, 7] ∧
      RangesOk (shorts 1100).rows.length 0 [(1000, 1050)] ∧ BatchesOk (selected (shorts 1100).rows [(1000, 1050)]).length [30, 20] := by
  have hl := shorts_length 1100
  refine ⟨shorts_ok 1100 (by omega) (by omega), rfl, ?_, by decide +kernel, by decide +kernel, ⟨by omega, by omega, by rw [hl]; omega, trivial⟩,
    ⟨by decide, by decide +kernel⟩⟩
  exact fun h => absurd (congrArg List.length h) (by decide +kernel)

/-- Lists of one and of three 32 bit integers. -/
def intLists : Rows (List Nat) :=
  ⟨[.allValidItem, .allValidList], false, [[⟨1, 0, some [1, 2, 0, 0]⟩],
    [⟨1, 0, some [5, 0, 0, 0]⟩, ⟨0, 0, some [0, 0, 0, 0]⟩, ⟨0, 0, some [255, 255, 255, 255]⟩]]⟩

theorem C87_lists_nonvacuous :
    RowsOk intLists ∧ (∀ row ∈ intLists.rows, ∀ s ∈ row, s.val.isSome = true) ∧ valsOf intLists.rows.flatten ≠ [] ∧
      (∀ v ∈ valsOf intLists.rows.flatten, v.length = 4 ∧ ∀ b ∈ v, b < 256) ∧
      (∀ chunk ∈ chunks1024 (valsOf intLists.rows.flatten).length ((valsOf intLists.rows.flatten).map ofLe), bitWidth chunk ≠ 0) ∧
      RangesOk intLists.rows.length 0 [(1, 2)] ∧ BatchesOk (selected intLists.rows [(1, 2)]).length [1] := by
  refine ⟨⟨by decide, by decide, by decide⟩, by decide, by decide, by decide, by decide, ⟨by omega, by omega, by decide, trivial⟩,
    ⟨by decide, by decide⟩⟩

end Verif.Mini
