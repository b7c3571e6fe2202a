import Verif.Chunk.Lemmas

/-!
# C29: re-batching keeps all rows in order
-/
namespace Verif.Chunk
variable {α : Type}

/-- C29: chunking into chunks of a positive size keeps every row, in order; chunk `k` has the rows from
`k * size` on, so that every chunk but the last has exactly `size` rows; no chunk and no batch in it is
empty. -/
theorem C29_chunk (stream : List (List α)) (size : Nat) (hs : 0 < size) :
    (chunkStream stream size).flatten.flatten = stream.flatten ∧
    (∀ k ch, (chunkStream stream size)[k]? = some ch →
      ch.flatten = (stream.flatten.drop (size * k)).take size ∧ ch.flatten ≠ [] ∧
      (k + 1 < (chunkStream stream size).length → ch.flatten.length = size)) ∧
    ∀ ch ∈ chunkStream stream size, ∀ p ∈ ch, p ≠ [] := by
  have hrest : (⟨stream, [], 0⟩ : Chunker α).rest = stream.flatten := by simp [Chunker.rest]
  obtain ⟨h1, h2, h3⟩ := chunks_spec size hs (stream.flatten.length + 1) ⟨stream, [], 0⟩ (Or.inl rfl)
  rw [hrest] at h1 h3
  refine ⟨?_, ?_, h2⟩
  · rw [chunkStream, h1, List.take_of_length_le]
    have : 1 * (stream.flatten.length + 1) ≤ size * (stream.flatten.length + 1) := Nat.mul_le_mul_right _ hs
    omega
  · intro k ch hk
    obtain ⟨e1, e2⟩ := h3 k ch hk
    refine ⟨e1, e2, ?_⟩
    intro hlt
    obtain ⟨ch2, hch2⟩ : ∃ ch2, (chunkStream stream size)[k + 1]? = some ch2 :=
      ⟨_, List.getElem?_eq_getElem hlt⟩
    obtain ⟨e3, e4⟩ := h3 (k + 1) ch2 hch2
    have hlen : size * (k + 1) < stream.flatten.length := by
      rcases Nat.lt_or_ge (size * (k + 1)) stream.flatten.length with h | h
      · exact h
      · rw [e3, List.drop_of_length_le h] at e4
        exact absurd List.take_nil e4
    rw [e1, List.length_take, List.length_drop]
    rw [Nat.mul_succ] at hlen
    omega

example : (chunkStream [[1, 2, 3], [], [4, 5, 6, 7, 8]] 3) = [[[1, 2, 3]], [[4, 5, 6]], [[7, 8]]] := by decide
example : (chunkStream [[1, 2], [3, 4, 5, 6, 7], [8]] 3) = [[[1, 2], [3]], [[4, 5, 6]], [[7], [8]]] := by decide

/-- C29: concatenating the chunks gives the batches of the given size. -/
theorem C29_chunk_concat (stream : List (List α)) (size : Nat) (hs : 0 < size) :
    (chunkConcatStream stream size).flatten = stream.flatten ∧
    ∀ k b, (chunkConcatStream stream size)[k]? = some b →
      b = (stream.flatten.drop (size * k)).take size ∧ b ≠ [] ∧
      (k + 1 < (chunkConcatStream stream size).length → b.length = size) := by
  obtain ⟨h1, h2, _⟩ := C29_chunk stream size hs
  constructor
  · rw [← h1, chunkConcatStream]
    generalize chunkStream stream size = l
    induction l with
    | nil => rfl
    | cons a l ih => simp [ih]
  · intro k b hk
    unfold chunkConcatStream at hk ⊢
    rw [List.getElem?_map] at hk
    cases hc : (chunkStream stream size)[k]? with
    | none => rw [hc] at hk; cases hk
    | some ch =>
      rw [hc] at hk; cases hk
      simpa using h2 k ch hc

/-- C29, full statement for `chunk_stream`: no rows are lost for any size. -/
def C29_chunk_statement : Prop :=
  ∀ (stream : List (List Nat)) (size : Nat), (chunkStream stream size).flatten.flatten = stream.flatten

/-- It fails for size 0, where every row is dropped without an error (so a write of legacy files with
`max_rows_per_group = 0` loses its data, `C29_zero_group_violated`). -/
theorem C29_chunk_violated : ¬ C29_chunk_statement := by
  intro h
  have := h [[1]] 0
  revert this
  decide

/-- C29: breaking a stream keeps every row in order, never joins input batches, gives no empty batch and
none above the limit, and puts a boundary after every multiple of the limit. -/
theorem C29_break (stream : List (List α)) (maxRows : Nat) (hm : 0 < maxRows) :
    ∃ out, breakStream stream maxRows = some out ∧ out.flatten = stream.flatten ∧
      (∀ b ∈ out, b ≠ [] ∧ b.length ≤ maxRows) ∧
      (∀ k, 0 < k → k * maxRows ≤ stream.flatten.length → k * maxRows ∈ cuts 0 out) ∧
      (∃ parts : List (List (List α)), parts.flatten = out ∧ parts.map List.flatten = stream) := by
  obtain ⟨h1, h2, h3, h4⟩ := breakFrom_spec maxRows hm stream 0 hm
  refine ⟨breakFrom maxRows 0 stream, ?_, h1, h2, ?_, h4⟩
  · unfold breakStream; rw [if_neg (by omega)]
  · intro k hk hle
    exact h3 (k * maxRows) (by omega) (Nat.mul_pos hk hm) (by simp)

/-- The example in the comment of `break_stream`: lengths 3, 5, 8, 3, 5 with a break every 10 rows. -/
example : (breakStream [[1, 2, 3], [4, 5, 6, 7, 8], [9, 10, 11, 12, 13, 14, 15, 16], [17, 18, 19],
    [20, 21, 22, 23, 24]] 10).map (fun l => l.map List.length) = some [3, 5, 2, 6, 3, 1, 4] := by decide

/-- C29: a limit of 0 rows panics (unless the stream has no batch). -/
theorem C29_break_zero (b : List α) (bs : List (List α)) : breakStream (b :: bs) 0 = none := rfl

end Verif.Chunk
