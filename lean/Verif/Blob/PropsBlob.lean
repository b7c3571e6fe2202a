import Verif.Blob.LemmasFile

/-!
# C68: blob columns return the values that were written; C69: a blob opened as a file behaves like a file
-/
namespace Verif.Blob
open Verif.ListCol (slice)

/-- The batches of a file: every array is well formed and every batch has blob column `c`. -/
def Written (batches : List (List BinArray × Bytes)) (c : Nat) : Prop :=
  (∀ b ∈ batches, ∀ a ∈ b.1, a.WF) ∧ ∀ b ∈ batches, c < b.1.length

/-- The descriptions of the rows `rows` of blob column `c` of the file. -/
def descsOf (batches : List (List BinArray × Bytes)) (c : Nat) (rows : List Nat) : List Desc :=
  rows.map (fun i => (columnDescs (writeFile [] batches).1 c).getD i ⟨0, 0⟩)

/-- C68.  A file is written from any batches, with any number of blob columns and any pages in between; any rows of a
blob column are read back in any legal schedule of waits and drains.  The decoder succeeds and its arrays are the values
written, in the order asked for: nulls stay null, empty values stay empty and every byte is right. -/
theorem C68_blob_column (batches : List (List BinArray × Bytes)) (c : Nat) (hw : Written batches c) (rows : List Nat)
    (hr : ∀ i ∈ rows, i < (columnValues batches c).length) (steps : List Step) (hs : Legal rows.length 0 0 steps) :
    ∃ arrays d, runDec (writeFile [] batches).2 (Dec.new (descsOf batches c rows)) steps = some (arrays, d) ∧
      arrays.flatMap BinArray.values =
        (rows.map (fun i => (columnValues batches c).getD i none)).take (drainedBy steps) := by
  have h := (writeFile_ok c batches [] hw.1 hw.2).pick ⟨0, 0⟩ rows hr
  obtain ⟨arrays, d, h1, h2, _⟩ := runDec_ok steps (Dec.new (descsOf batches c rows)) h
    ⟨Nat.le_refl _, Nat.zero_le _, rfl, rfl⟩ (by simpa [Dec.new] using hs)
  refine ⟨arrays, d, h1, ?_⟩
  rw [h2]
  simp [slice, Dec.new]

/-- One description for every value. -/
theorem C68_one_description_each (batches : List (List BinArray × Bytes)) (c : Nat) (hw : Written batches c) :
    (columnDescs (writeFile [] batches).1 c).length = (columnValues batches c).length :=
  (writeFile_ok c batches [] hw.1 hw.2).length

/-- Two batches with two blob columns each; the first array of the second batch starts at an offset that is not 0, and one
of its null slots has bytes. -/
def demo : List (List BinArray × Bytes) :=
  [([⟨[0, 2, 2, 3], [7, 8, 9], none⟩, ⟨[0, 1, 1, 1], [4], some [true, false, true]⟩], [1, 1, 1]),
   ([⟨[1, 2, 4], [5, 6, 7, 8], some [true, false]⟩, ⟨[0, 0, 2], [3, 3], none⟩], [])]

theorem demo_written : Written demo 0 ∧ Written demo 1 := by
  have hwf : ∀ b ∈ demo, ∀ a ∈ b.1, a.WF := by
    intro b hb a ha
    simp only [demo, List.mem_cons, List.not_mem_nil, or_false] at hb
    rcases hb with hb | hb <;> subst hb <;>
      (simp only [List.mem_cons, List.not_mem_nil, or_false] at ha
       rcases ha with ha | ha <;> subst ha <;>
        exact ⟨by decide, by decide, by decide, by intro v hv; cases hv <;> rfl⟩)
  exact ⟨⟨hwf, by decide⟩, ⟨hwf, by decide⟩⟩

/-- The case is not trivial: it has a null, an empty value and others, and they are read in three pieces. -/
theorem C68_nonvacuous :
    Written demo 0 ∧ columnValues demo 0 = [some [7, 8], some [], some [9], some [6], none] ∧
    columnValues demo 1 = [some [4], none, some [], some [], some [3, 3]] ∧
    Legal 4 0 0 [.wait 1, .drain 1, .wait 5, .drain 2, .drain 1] ∧
    (runDec (writeFile [] demo).2 (Dec.new (descsOf demo 0 [4, 1, 3, 0])) [.wait 1, .drain 1, .wait 5, .drain 2, .drain 1]).map
      (fun x => x.1.map BinArray.values) = some [[none], [some [], some [6]], [some [7, 8]]] := by
  refine ⟨demo_written.1, by decide, by decide, by simp [Legal], by decide +kernel⟩

/-! ## C69 -/

/-- dataset/blob.rs:176-228 on row `i` of a file: the file object handed out. -/
def openRow (batches : List (List BinArray × Bytes)) (c i : Nat) : Option BlobFile :=
  (takeBlobs ((((columnDescs (writeFile [] batches).1 c)[i]?).map (fun d => ((writeFile [] batches).2, d))).toList)).head?

theorem openRow_eq (batches : List (List BinArray × Bytes)) (c i : Nat) (d : Desc)
    (h : (columnDescs (writeFile [] batches).1 c)[i]? = some d) :
    openRow batches c i = some (BlobFile.new (writeFile [] batches).2 d.position d.size) := by
  unfold openRow
  rw [h]
  rfl

/-- C69, full statement: a value that is not null, opened with `take_blobs`, behaves like a plain file with these
bytes, whatever sequence of calls is made. -/
def C69_statement : Prop :=
  ∀ (batches : List (List BinArray × Bytes)) (c i : Nat) (v : Bytes), Written batches c →
    (writeFile [] batches).2.length < 2 ^ 63 → (columnValues batches c)[i]? = some (some v) →
    ∃ b, openRow batches c i = some b ∧ ∀ ops, pyRun b ops = Ref.run ⟨v, 0, false⟩ ops

/-- Three values in one batch. -/
def three : List (List BinArray × Bytes) := [([⟨[0, 2, 3, 5], [1, 2, 3, 4, 5], none⟩], [])]

theorem three_written : Written three 0 := by
  refine ⟨?_, by decide⟩
  intro b hb a ha
  simp only [three, List.mem_cons, List.not_mem_nil, or_false] at hb
  subst hb
  simp only [List.mem_cons, List.not_mem_nil, or_false] at ha
  subst ha
  exact ⟨by decide, by decide, by decide, by intro v hv; cases hv⟩

/-- It fails: after reading everything, `tell` gives a position in the data file (65 for a value of one byte). -/
theorem C69_violated : ¬ C69_statement := by
  intro h
  obtain ⟨b, h1, h2⟩ := h three 0 1 [3] three_written (by decide +kernel) (by decide +kernel)
  have e : openRow three 0 1 = some (BlobFile.new (writeFile [] three).2 64 1) := by decide +kernel
  rw [e] at h1
  cases h1
  have := h2 [.readall, .tell]
  revert this
  decide +kernel

/-- And a read that starts after the end of a value returns bytes of another value: the first value has two bytes, the second
one is `[3]`.  (`size - cursor` wraps in a release build.) -/
theorem C69_reads_another_value_violated : ∃ b, openRow three 0 0 = some b ∧
    pyRun b [.seek 64 .set, .read 10] = [.num 64, .bytes (3 :: List.replicate 9 0)] ∧
    Ref.run ⟨[1, 2], 0, false⟩ [.seek 64 .set, .read 10] = [.num 64, .bytes []] := by
  refine ⟨BlobFile.new (writeFile [] three).2 0 2, by decide +kernel, by decide +kernel, by decide +kernel⟩

/-- Reading to the end and then on, as a copy loop does, can raise: the second read is not empty. -/
theorem C69_read_to_end_then_on_violated : ∃ b, openRow three 0 1 = some b ∧
    pyRun b [.readall, .read 100] = [.bytes [3], .raised] ∧
    Ref.run ⟨[3], 0, false⟩ [.readall, .read 100] = [.bytes [3], .bytes []] := by
  refine ⟨BlobFile.new (writeFile [] three).2 64 1, by decide +kernel, by decide +kernel, by decide +kernel⟩

theorem openRow_holds (batches : List (List BinArray × Bytes)) (c i : Nat) (v : Option Bytes) (hw : Written batches c)
    (hl : (writeFile [] batches).2.length < 2 ^ 63) (hv : (columnValues batches c)[i]? = some v) :
    ∃ d, (columnDescs (writeFile [] batches).1 c)[i]? = some d ∧
      openRow batches c i = some (BlobFile.new (writeFile [] batches).2 d.position d.size) ∧
      Holds (writeFile [] batches).2 d.position d.size (v.getD []) := by
  have h := writeFile_ok c batches [] hw.1 hw.2
  have hi : i < (columnDescs (writeFile [] batches).1 c).length := by
    rw [h.length]
    exact (List.getElem?_eq_some_iff.1 hv).1
  obtain ⟨w, h1, h2⟩ := h.get i _ (List.getElem?_eq_getElem hi)
  rw [hv] at h1
  cases h1
  exact ⟨_, List.getElem?_eq_getElem hi, openRow_eq _ _ _ _ (List.getElem?_eq_getElem hi), holds_of_locates h2 hl⟩

/-- C69 for histories without the two faults: between a `readall` and the next absolute seek nothing depends on the
cursor (not needed for a value at position 0), and no read starts after the end.  In all of them, with any seeks, reads of
any size, reopening by cursor, closing, and calls after closing, the object cannot be told from a plain file. -/
theorem C69_partial (batches : List (List BinArray × Bytes)) (c i : Nat) (v : Bytes) (hw : Written batches c)
    (hl : (writeFile [] batches).2.length < 2 ^ 63) (hv : (columnValues batches c)[i]? = some (some v)) :
    ∃ b, openRow batches c i = some b ∧
      ∀ ops, Safe b.position false ⟨v, 0, false⟩ ops → pyRun b ops = Ref.run ⟨v, 0, false⟩ ops := by
  obtain ⟨d, _, h2, h3⟩ := openRow_holds batches c i (some v) hw hl hv
  refine ⟨_, h2, ?_⟩
  intro ops hs
  exact run_agree ops _ _ false ⟨h3, .inr ⟨rfl, 0, .inl rfl, fun _ => rfl⟩⟩ hs

/-- Reading a value in pieces of any sizes: what comes back, concatenated, is the value, up to the bytes asked for. -/
theorem C69_chunks (batches : List (List BinArray × Bytes)) (c i : Nat) (v : Bytes) (hw : Written batches c)
    (hl : (writeFile [] batches).2.length < 2 ^ 63) (hv : (columnValues batches c)[i]? = some (some v)) (sizes : List Nat) :
    ∃ b, openRow batches c i = some b ∧ ∃ pieces : List Bytes,
      pyRun b (sizes.map Op.read) = pieces.map Ret.bytes ∧ pieces.flatten = v.take sizes.sum := by
  obtain ⟨b, h1, h2⟩ := C69_partial batches c i v hw hl hv
  refine ⟨b, h1, ?_⟩
  have key : ∀ (sizes : List Nat) (k : Nat), k ≤ v.length → Safe b.position false ⟨v, k, false⟩ (sizes.map Op.read) ∧
      ∃ pieces : List Bytes, Ref.run ⟨v, k, false⟩ (sizes.map Op.read) = pieces.map Ret.bytes ∧
        pieces.flatten = (v.drop k).take sizes.sum := by
    intro sizes
    induction sizes with
    | nil => intro k _; exact ⟨trivial, [], rfl, by simp⟩
    | cons n sizes ih =>
      intro k hk
      have hk' : k + ((v.drop k).take n).length ≤ v.length := by simp; omega
      obtain ⟨i1, pieces, i2, i3⟩ := ih (k + ((v.drop k).take n).length) hk'
      refine ⟨⟨.inr ⟨rfl, hk⟩, i1⟩, (v.drop k).take n :: pieces, ?_, ?_⟩
      · show _ :: _ = _ :: _
        congr 1
      · rw [List.flatten_cons, i3, List.sum_cons]
        rw [List.take_add, List.drop_drop]
        congr 1
        by_cases hn : n ≤ (v.drop k).length
        · rw [List.length_take, Nat.min_eq_left hn]
        · rw [List.drop_of_length_le (by simp at hn ⊢; omega), List.drop_of_length_le (by simp at hn ⊢; omega)]
  obtain ⟨k1, pieces, k2, k3⟩ := key sizes 0 (Nat.zero_le _)
  exact ⟨pieces, by rw [h2 _ k1, k2], by simpa using k3⟩

/-- A null value also gets a file object; its contents are empty, so a null cannot be told from an empty value. -/
theorem C69_null_reads_empty (batches : List (List BinArray × Bytes)) (c i : Nat) (hw : Written batches c)
    (hl : (writeFile [] batches).2.length < 2 ^ 63) (hv : (columnValues batches c)[i]? = some none) :
    ∃ b, openRow batches c i = some b ∧ pyRun b [.size, .readall] = [.num 0, .bytes []] := by
  obtain ⟨d, _, h2, h3⟩ := openRow_holds batches c i none hw hl hv
  refine ⟨_, h2, ?_⟩
  exact run_agree [.size, .readall] _ ⟨[], 0, false⟩ false ⟨h3, .inr ⟨rfl, 0, .inl rfl, fun _ => rfl⟩⟩
    ⟨trivial, .inr ⟨rfl, Nat.le_refl _⟩, trivial⟩

/-- A long history that meets the hypotheses. -/
theorem C69_nonvacuous :
    ∃ b, openRow three 0 2 = some b ∧ b.position = 128 ∧
    Safe 128 false ⟨[4, 5], 0, false⟩
      [.read 1, .tell, .seek (-1) .cur, .readall, .size, .seek (-1) .fromEnd, .read 9, .read 9, .seek (-5) .set, .close, .read 1] ∧
    pyRun b
      [.read 1, .tell, .seek (-1) .cur, .readall, .size, .seek (-1) .fromEnd, .read 9, .read 9, .seek (-5) .set, .close, .read 1] =
      [.bytes [4], .num 1, .num 0, .bytes [4, 5], .num 2, .num 1, .bytes [5], .bytes [], .raised, .unit, .raised] := by
  refine ⟨BlobFile.new (writeFile [] three).2 128 2, by decide +kernel, rfl, ?_, by decide +kernel⟩
  simp [Safe, Allowed, lostAfter, Ref.step, Ref.seekAbs]

end Verif.Blob
