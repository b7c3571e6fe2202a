import Verif.Chunk.PropsStream

/-!
# C29: cutting a stream into files
-/
namespace Verif.Chunk
variable {α : Type}

/-- Rows handed to a writer so far. -/
def Writer.rows (w : Writer α) : List α := w.done.flatten ++ (w.cur.getD [])

theorem writeChunk_rows (maxRows : Nat) (w : Writer α) (c : List (List α)) (full : Bool) :
    (writeChunk maxRows w c full).rows = w.rows ++ c.flatten := by
  unfold writeChunk
  simp only
  split <;> simp [Writer.rows]

theorem writeLoop_rows (maxRows : Nat) (bytesFull : Nat → Bool) (cs : List (List (List α))) (k : Nat) (w : Writer α) :
    (writeLoop maxRows bytesFull k w cs).rows = w.rows ++ cs.flatten.flatten := by
  induction cs generalizing k w with
  | nil => simp [writeLoop]
  | cons c cs ih => rw [writeLoop, ih, writeChunk_rows]; simp

theorem finish_flatten (w : Writer α) : (finish w).flatten = w.rows := by
  unfold finish Writer.rows
  cases w.cur <;> simp

/-- A file that is being written, or was, holds rows. -/
def Writer.NonEmpty (w : Writer α) : Prop := (∀ f ∈ w.done, f ≠ []) ∧ ∀ f, w.cur = some f → f ≠ []

theorem writeChunk_nonEmpty (maxRows : Nat) (w : Writer α) (c : List (List α)) (full : Bool) (hc : c.flatten ≠ [])
    (hw : w.NonEmpty) : (writeChunk maxRows w c full).NonEmpty := by
  have hne : w.cur.getD [] ++ c.flatten ≠ [] := by
    intro h; exact hc (List.append_eq_nil_iff.mp h).2
  unfold writeChunk
  simp only
  split
  · refine ⟨?_, by simp⟩
    intro f hf
    rcases List.mem_append.mp hf with hf | hf
    · exact hw.1 f hf
    · simp only [List.mem_singleton] at hf; rw [hf]; exact hne
  · exact ⟨hw.1, by intro f hf; cases hf; exact hne⟩

theorem writeLoop_nonEmpty (maxRows : Nat) (bytesFull : Nat → Bool) (cs : List (List (List α))) (k : Nat) (w : Writer α)
    (hcs : ∀ c ∈ cs, c.flatten ≠ []) (hw : w.NonEmpty) : (writeLoop maxRows bytesFull k w cs).NonEmpty := by
  induction cs generalizing k w with
  | nil => exact hw
  | cons c cs ih =>
    exact ih _ _ (fun c hc => hcs c (List.mem_cons_of_mem _ hc))
      (writeChunk_nonEmpty _ _ _ _ (hcs c List.mem_cons_self) hw)

theorem finish_nonEmpty (w : Writer α) (hw : w.NonEmpty) : ∀ f ∈ finish w, f ≠ [] := by
  unfold finish
  cases h : w.cur with
  | none => exact hw.1
  | some cur =>
    intro f hf
    rcases List.mem_append.mp hf with hf | hf
    · exact hw.1 f hf
    · simp only [List.mem_singleton] at hf; rw [hf]; exact hw.2 cur h

/-- Size bound: an open file is below the limit, closed ones are below the limit plus one chunk. -/
def Writer.Bound (w : Writer α) (maxRows chunk : Nat) : Prop :=
  (∀ f ∈ w.done, f.length < maxRows + chunk) ∧ w.inCurrent = (w.cur.getD []).length ∧ (w.cur.getD []).length < maxRows

theorem writeChunk_bound (maxRows chunk : Nat) (w : Writer α) (c : List (List α)) (full : Bool)
    (hm : 0 < maxRows) (h32 : maxRows + chunk ≤ U32) (hc : c.flatten.length ≤ chunk) (hw : w.Bound maxRows chunk) :
    (writeChunk maxRows w c full).Bound maxRows chunk := by
  obtain ⟨h1, h2, h3⟩ := hw
  have hlen : (w.cur.getD [] ++ c.flatten).length < maxRows + chunk := by rw [List.length_append]; omega
  have hn : (w.inCurrent + c.flatten.length) % U32 = (w.cur.getD [] ++ c.flatten).length := by
    rw [h2, ← List.length_append]; exact Nat.mod_eq_of_lt (by omega)
  unfold writeChunk
  simp only
  rw [hn]
  split
  · refine ⟨?_, rfl, by simpa using hm⟩
    intro f hf
    rcases List.mem_append.mp hf with hf | hf
    · exact h1 f hf
    · simp only [List.mem_singleton] at hf; rw [hf]; exact hlen
  · rename_i h
    refine ⟨h1, rfl, ?_⟩
    show (w.cur.getD [] ++ c.flatten).length < maxRows
    have := fun h' => h (Or.inl h')
    have hle : maxRows % U32 ≤ maxRows := Nat.mod_le _ _
    rcases Nat.lt_or_ge (w.cur.getD [] ++ c.flatten).length maxRows with h' | h'
    · exact h'
    · exact absurd (Nat.le_trans hle h') this

theorem writeLoop_bound (maxRows chunk : Nat) (bytesFull : Nat → Bool) (cs : List (List (List α))) (k : Nat) (w : Writer α)
    (hm : 0 < maxRows) (h32 : maxRows + chunk ≤ U32) (hcs : ∀ c ∈ cs, c.flatten.length ≤ chunk)
    (hw : w.Bound maxRows chunk) : (writeLoop maxRows bytesFull k w cs).Bound maxRows chunk := by
  induction cs generalizing k w with
  | nil => exact hw
  | cons c cs ih =>
    exact ih _ _ (fun c hc => hcs c (List.mem_cons_of_mem _ hc))
      (writeChunk_bound _ _ _ _ _ hm h32 (hcs c List.mem_cons_self) hw)

theorem finish_bound (maxRows chunk : Nat) (w : Writer α) (hw : w.Bound maxRows chunk) :
    ∀ f ∈ finish w, f.length < maxRows + chunk := by
  unfold finish
  cases h : w.cur with
  | none => exact hw.1
  | some cur =>
    intro f hf
    rcases List.mem_append.mp hf with hf | hf
    · exact hw.1 f hf
    · simp only [List.mem_singleton] at hf
      have := hw.2.2
      rw [h] at this
      simp only [Option.getD_some] at this
      rw [hf]; omega

theorem flatten_singletons (bs : List (List α)) : (bs.map (fun b => [b])).flatten = bs := by
  induction bs with
  | nil => rfl
  | cons b bs ih => simp [ih]

/-- C29: no row is lost, doubled or moved by cutting the stream into files, and no file is empty, as long as
the limits are not zero. -/
theorem C29_writer_rows (legacy : Bool) (maxRows maxGroup : Nat) (bytesFull : Nat → Bool) (stream : List (List α))
    (hm : 0 < maxRows) (hg : 0 < maxGroup) :
    ∃ files, writeFragments legacy maxRows maxGroup bytesFull stream = some files ∧
      files.flatten = stream.flatten ∧ ∀ f ∈ files, f ≠ [] := by
  have hw0 : (⟨[], none, 0⟩ : Writer α).NonEmpty := ⟨by simp, by simp⟩
  cases legacy with
  | true =>
    obtain ⟨h1, h2, _⟩ := C29_chunk stream (min maxGroup maxRows) (by omega)
    refine ⟨_, rfl, ?_, ?_⟩
    · rw [finish_flatten, writeLoop_rows, h1]; simp [Writer.rows]
    · apply finish_nonEmpty
      apply writeLoop_nonEmpty _ _ _ _ _ _ hw0
      intro c hc
      obtain ⟨k, hk, rfl⟩ := List.getElem_of_mem hc
      exact (h2 k _ (List.getElem?_eq_getElem hk)).2.1
  | false =>
    obtain ⟨bs, e, h1, h2, _⟩ := C29_break stream maxRows hm
    refine ⟨finish (writeLoop maxRows bytesFull 0 ⟨[], none, 0⟩ (bs.map (fun b => [b]))), ?_, ?_, ?_⟩
    · simp [writeFragments, e]
    · rw [finish_flatten, writeLoop_rows, ← h1]
      simp only [Writer.rows, List.flatten_nil, Option.getD_none, List.nil_append]
      rw [flatten_singletons]
    · apply finish_nonEmpty
      apply writeLoop_nonEmpty _ _ _ _ _ _ hw0
      intro c hc
      obtain ⟨b, hb, rfl⟩ := List.mem_map.mp hc
      simpa using (h2 b hb).1

example : writeFragments false 3 10 (fun k => k == 1) [[1, 2], [3, 4, 5, 6, 7]] =
    some [[1, 2, 3], [4, 5, 6], [7]] := by decide

/-- C29, the limit on rows. -/
def C29_limit_statement : Prop :=
  ∀ (legacy : Bool) (maxRows maxGroup : Nat) (bytesFull : Nat → Bool) (stream files : List (List Nat)),
    0 < maxRows → 0 < maxGroup → writeFragments legacy maxRows maxGroup bytesFull stream = some files →
    ∀ f ∈ files, f.length ≤ maxRows

/-- It fails for the new format: once the byte limit has closed a file early, the breaks of the stream are
out of step with the files, so a file takes up to almost twice the limit. -/
theorem C29_limit_violated : ¬ C29_limit_statement := by
  intro h
  have := h false 4 1 (fun k => k == 0) [[1, 2], [3, 4], [5, 6, 7, 8]] [[1, 2], [3, 4, 5, 6, 7, 8]] (by decide) (by decide)
    (by decide) [3, 4, 5, 6, 7, 8] (by decide)
  revert this; decide

/-- And for legacy files when the group size does not divide the limit. -/
theorem C29_limit_legacy_violated :
    ∃ files, writeFragments true 6 4 (fun _ => false) [[1, 2, 3, 4, 5, 6, 7, 8, 9]] = some files ∧
      ∃ f ∈ files, f.length = 8 :=
  ⟨[[1, 2, 3, 4, 5, 6, 7, 8], [9]], by decide, by decide⟩

/-- Without the condition on the group size, rows are lost. -/
theorem C29_zero_group_violated :
    ∃ stream : List (List Nat), stream.flatten = [1, 2] ∧ writeFragments true 6 0 (fun _ => false) stream = some [] :=
  ⟨[[1, 2]], by decide, by decide⟩

/-- C29: a limit of 2^32 rows counts as zero: every batch of the stream becomes a file of its own. -/
theorem C29_wide_limit_violated :
    writeFragments false 4294967296 1 (fun _ => false) [[1], [2], [3]] = some [[1], [2], [3]] := by decide +kernel

/-- C29: what holds of the limit.  A file has fewer rows than the limit plus one group (legacy) or than
twice the limit (otherwise). -/
theorem C29_limit_partial (legacy : Bool) (maxRows maxGroup : Nat) (bytesFull : Nat → Bool)
    (stream files : List (List α)) (hm : 0 < maxRows) (hg : 0 < maxGroup) (h32 : maxRows + maxRows ≤ U32)
    (h : writeFragments legacy maxRows maxGroup bytesFull stream = some files) :
    ∀ f ∈ files, f.length < maxRows + (if legacy then min maxGroup maxRows else maxRows) := by
  cases legacy with
  | true =>
    obtain ⟨_, h2, _⟩ := C29_chunk stream (min maxGroup maxRows) (by omega)
    simp only [writeFragments, if_true, Option.some.injEq] at h
    subst h
    simp only [if_true]
    apply finish_bound
    apply writeLoop_bound _ _ _ _ _ _ hm (by omega)
    · intro c hc
      obtain ⟨k, hk, rfl⟩ := List.getElem_of_mem hc
      rw [(h2 k _ (List.getElem?_eq_getElem hk)).1, List.length_take]
      omega
    · exact ⟨by simp, rfl, hm⟩
  | false =>
    obtain ⟨bs, e, _, h2, _⟩ := C29_break stream maxRows hm
    simp only [writeFragments, e, Bool.false_eq_true, if_false, Option.some.injEq] at h
    subst h
    simp only [Bool.false_eq_true, if_false]
    apply finish_bound
    apply writeLoop_bound _ _ _ _ _ _ hm (by omega)
    · intro c hc
      obtain ⟨b, hb, rfl⟩ := List.mem_map.mp hc
      simpa using (h2 b hb).2
    · exact ⟨by simp, rfl, hm⟩

/-! ### Exact files when nothing closes early -/

/-- Boundaries behind every multiple of the limit, relative to the rows of the open file. -/
theorem writeLoop_even (maxRows : Nat) (hm : 0 < maxRows) (h32 : maxRows + maxRows ≤ U32) (bs : List (List α))
    (k : Nat) (w : Writer α) (hb : ∀ b ∈ bs, b.length ≤ maxRows)
    (hcut : ∀ c, c ≤ (w.cur.getD []).length + bs.flatten.length → (w.cur.getD []).length < c → c % maxRows = 0 →
      c ∈ cuts (w.cur.getD []).length bs)
    (hin : w.inCurrent = (w.cur.getD []).length) (hlt : (w.cur.getD []).length < maxRows)
    (hdone : ∀ f ∈ w.done, f.length = maxRows) :
    let w' := writeLoop maxRows (fun _ => false) k w (bs.map (fun b => [b]))
    (∀ f ∈ w'.done, f.length = maxRows) ∧ (w'.cur.getD []).length < maxRows := by
  induction bs generalizing k w with
  | nil => exact ⟨hdone, hlt⟩
  | cons b bs ih =>
    have hbl := hb b List.mem_cons_self
    rw [List.map_cons, writeLoop]
    have hn : (w.inCurrent + ([b] : List (List α)).flatten.length) % U32 = (w.cur.getD []).length + b.length := by
      rw [hin]; simp only [List.flatten_cons, List.flatten_nil, List.append_nil]
      exact Nat.mod_eq_of_lt (by omega)
    have hmm : maxRows % U32 = maxRows := Nat.mod_eq_of_lt (by omega)
    have hsum : (b :: bs).flatten.length = b.length + bs.flatten.length := by simp
    -- boundaries that remain, after the first batch
    have later : ∀ c, c ≤ (w.cur.getD []).length + b.length + bs.flatten.length →
        (w.cur.getD []).length + b.length < c → c % maxRows = 0 →
        c ∈ cuts ((w.cur.getD []).length + b.length) bs := by
      intro c c1 c2 c3
      have := hcut c (by rw [hsum]; omega) (by omega) c3
      simp only [cuts, List.mem_cons] at this
      rcases this with h | h
      · omega
      · exact h
    by_cases hfull : (w.cur.getD []).length + b.length < maxRows
    · have e : writeChunk maxRows w [b] false = ⟨w.done, some (w.cur.getD [] ++ b), (w.cur.getD []).length + b.length⟩ := by
        unfold writeChunk
        simp only
        rw [hn, hmm, if_neg (by simp; omega)]
        simp
      rw [e]
      apply ih
      · exact fun b hb' => hb b (List.mem_cons_of_mem _ hb')
      · intro c c1 c2 c3
        simp only [Option.getD_some, List.length_append] at c1 c2 ⊢
        exact later c c1 c2 c3
      · simp
      · simp only [Option.getD_some, List.length_append]; exact hfull
      · exact hdone
    · -- the boundary at `maxRows` is the end of this batch
      have hexact : (w.cur.getD []).length + b.length = maxRows := by
        have := hcut maxRows (by rw [hsum]; omega) hlt (Nat.mod_self _)
        simp only [cuts, List.mem_cons] at this
        rcases this with h | h
        · exact h.symm
        · have key : ∀ (l : List (List α)) (a x : Nat), x ∈ cuts a l → a ≤ x := by
            intro l
            induction l with
            | nil => intro a x hx; cases hx
            | cons p l ihl =>
              intro a x hx
              simp only [cuts, List.mem_cons] at hx
              rcases hx with rfl | hx
              · omega
              · have := ihl _ _ hx; omega
          have := key _ _ _ h
          omega
      have e : writeChunk maxRows w [b] false = ⟨w.done ++ [w.cur.getD [] ++ b], none, 0⟩ := by
        unfold writeChunk
        simp only
        rw [hn, hmm, if_pos (by left; omega)]
        simp
      rw [e]
      apply ih
      · exact fun b hb' => hb b (List.mem_cons_of_mem _ hb')
      · intro c c1 c2 c3
        simp only [Option.getD_none, List.length_nil, Nat.zero_add] at c1 c2 ⊢
        have := later (c + maxRows) (by omega) (by omega) (by rw [Nat.add_mod_right]; exact c3)
        rw [hexact] at this
        have key : ∀ (l : List (List α)) (a x d : Nat), x + d ∈ cuts (a + d) l → x ∈ cuts a l := by
          intro l
          induction l with
          | nil => intro a x d hx; cases hx
          | cons p l ihl =>
            intro a x d hx
            simp only [cuts, List.mem_cons] at hx ⊢
            rcases hx with hx | hx
            · left; omega
            · right; apply ihl _ _ d; rw [show a + p.length + d = a + d + p.length by omega]; exact hx
        exact key _ _ _ maxRows (by rw [Nat.zero_add]; exact this)
      · rfl
      · exact hm
      · intro f hf
        rcases List.mem_append.mp hf with hf | hf
        · exact hdone f hf
        · simp only [List.mem_singleton] at hf; rw [hf, List.length_append]; exact hexact

/-- C29: in the new format, if no file is closed for its bytes, every file but the last has exactly the
limit's rows, and the last at most that. -/
theorem C29_exact_files_partial (maxRows maxGroup : Nat) (stream files : List (List α)) (hm : 0 < maxRows)
    (h32 : maxRows + maxRows ≤ U32)
    (h : writeFragments false maxRows maxGroup (fun _ => false) stream = some files) :
    ∀ k f, files[k]? = some f → f.length ≤ maxRows ∧ (k + 1 < files.length → f.length = maxRows) := by
  obtain ⟨h1, h2, h3, _⟩ := breakFrom_spec maxRows hm stream 0 hm
  have e : breakStream stream maxRows = some (breakFrom maxRows 0 stream) := by
    unfold breakStream; rw [if_neg (by omega)]
  simp only [writeFragments, e, Bool.false_eq_true, if_false, Option.some.injEq] at h
  obtain ⟨g1, g2⟩ := writeLoop_even maxRows hm h32 (breakFrom maxRows 0 stream) 0 ⟨[], none, 0⟩
    (fun b hb => (h2 b hb).2)
    (by
      intro c c1 c2 c3
      simp only [Option.getD_none, List.length_nil, Nat.zero_add] at c1 c2 ⊢
      rw [h1] at c1
      exact h3 c (by omega) c2 c3)
    rfl hm (by simp)
  subst h
  intro k f hk
  revert hk
  generalize writeLoop maxRows (fun _ => false) 0 ⟨[], none, 0⟩ ((breakFrom maxRows 0 stream).map fun b => [b]) = w at *
  unfold finish
  cases hc : w.cur with
  | none =>
    intro hk
    have := g1 f (List.mem_of_getElem? hk)
    exact ⟨by omega, fun _ => this⟩
  | some cur =>
    rw [hc] at g2
    simp only [Option.getD_some] at g2
    simp only
    intro hk
    rw [List.length_append, List.length_singleton]
    by_cases hkl : k < w.done.length
    · rw [List.getElem?_append_left hkl] at hk
      have := g1 f (List.mem_of_getElem? hk)
      exact ⟨by omega, fun _ => this⟩
    · rw [List.getElem?_append_right (by omega)] at hk
      have hmem := List.mem_of_getElem? hk
      simp only [List.mem_singleton] at hmem
      rw [hmem]
      exact ⟨by omega, fun h => by omega⟩

example : writeFragments false 3 1 (fun _ => false) [[1, 2], [3, 4, 5, 6, 7], [], [8]] =
    some [[1, 2, 3], [4, 5, 6], [7, 8]] := by decide

end Verif.Chunk
