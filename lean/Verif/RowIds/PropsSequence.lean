import Verif.RowIds.SequenceLemmas2

/-!
# C11 slicing and re-chunking, C12 editing of row id sequences

`Seg.Good`: well-formed, and an empty segment is a range (every constructor gives such segments).
`Seg.Small`: as in C10.  `Seg.Sliceable`: a range, a sorted array or an array.
-/
namespace Verif.RowIds
namespace Seq
open Seg (WF Small)

/-! ## C11 -/

/-- C11, full statement for one segment: the slice of the segment lists the slice of the ids. -/
def C11_segment_slice_statement : Prop :=
  ∀ (sg : Seg) (off n : Nat), sg.WF → off + n ≤ sg.iter.length →
    ∃ s, sg.slice off n = some s ∧ s.iter = (sg.iter.drop off).take n

/-- `0..10` without `3`. -/
def holesWitness : Seg := .holes 0 10 (.u64 [3])

theorem holesWitness_wf : holesWitness.WF := by
  refine ⟨by decide, by decide, ?_, by decide, ?_⟩
  · simp [Enc.WF]
  · intro v hv; simp [Enc.iter] at hv; omega

/-- C11 fails for a range with holes: segment.rs:293-303 takes positions of the hole array for row
ids, so the first nine ids of `0..10` without `3` become `[]`. -/
theorem C11_segment_slice_violated : ¬ C11_segment_slice_statement := by
  intro h
  obtain ⟨s, h1, h2⟩ := h holesWitness 0 9 holesWitness_wf (by decide)
  have e : ∃ s, holesWitness.slice 0 9 = some s ∧ s.iter ≠ (holesWitness.iter.drop 0).take 9 := ⟨_, rfl, by decide⟩
  obtain ⟨s', e1, e2⟩ := e
  rw [e1] at h1
  cases h1
  exact e2 h2

/-- C11: slicing a range, a sorted array or an array.  Missing: ranges with holes or a bitmap (false,
see `C11_segment_slice_violated`). -/
theorem C11_segment_slice_partial (sg : Seg) (h : sg.WF) (hs : sg.Sliceable) (off n : Nat)
    (hb : off + n ≤ sg.iter.length) :
    ∃ s, sg.slice off n = some s ∧ s.WF ∧ s.iter = (sg.iter.drop off).take n :=
  Seg.slice_ok sg h hs off n hb

theorem all_set_of_count (p : Nat → Bool) (a n : Nat)
    (h : n + Verif.Deletion.countBelow p a = Verif.Deletion.countBelow p (a + n)) : ∀ i, i < n → p (a + i) = true := by
  induction n with
  | zero => intro i hi; omega
  | succ n ih =>
    rw [← Nat.add_assoc] at h
    simp only [Verif.Deletion.countBelow] at h
    have h2 := Verif.Deletion.countBelow_add p a n
    split at h
    · rename_i hp
      intro i hi
      rcases Nat.lt_or_ge i n with h3 | h3
      · exact ih (by omega) i h3
      · rw [show i = n by omega]; exact hp
    · omega

/-- C11 for a bitmap segment: offsets are taken as positions in the id range, not in the list of ids (so
the full statement fails once an id is missing before the end of the slice); what is listed are the ids
of the segment in that part of the range, in increasing order. -/
theorem C11_bitmap_slice_partial (s e : Nat) (b : Bitmap) (h : (Seg.bitmap s e b).WF) (off n : Nat) (hb : off + n ≤ e - s) :
    ∃ sg, (Seg.bitmap s e b).slice off n = some sg ∧ sg.iter.Pairwise (· < ·) ∧
      ∀ v, v ∈ sg.iter ↔ v ∈ (Seg.bitmap s e b).iter ∧ s + off ≤ v ∧ v < s + off + n := by
  obtain ⟨h1, h2, h3, h4⟩ := h
  have hlen := h3.1
  have hget : ∀ i, i < e - s → b.get i = some (bit b.data i) := fun i hi => Bitmap.get_eq b i (by omega)
  obtain ⟨ones, ho1, ho2⟩ := Bitmap.sliceCountOnes_eq b off n (by omega)
  simp only [Seg.slice, ho1]
  split
  · rename_i hn
    have hn : ones = n := hn
    subst hn
    refine ⟨_, rfl, List.pairwise_lt_range', fun v => ?_⟩
    have hall := all_set_of_count _ _ _ ho2
    simp only [Seg.iter, List.mem_range'_1, List.mem_filter]
    constructor
    · intro hv
      refine ⟨⟨by omega, ?_⟩, by omega⟩
      rw [hget _ (by omega)]
      have := hall (v - s - off) (by omega)
      rw [show off + (v - s - off) = v - s by omega] at this
      simpa using this
    · intro hv; omega
  · obtain ⟨b', hb1, hb2, hb3, hb4⟩ := C09_slice_copy b h3 off n (by omega)
    rw [hb1]
    refine ⟨_, rfl, List.Pairwise.filter _ List.pairwise_lt_range', fun v => ?_⟩
    simp only [Seg.iter, List.mem_range'_1, List.mem_filter]
    constructor
    · rintro ⟨hv, hg⟩
      rw [hb4 _ (by omega), show off + (v - (s + off)) = v - s by omega] at hg
      exact ⟨⟨by omega, hg⟩, by omega⟩
    · rintro ⟨⟨hv, hg⟩, hr⟩
      refine ⟨by omega, ?_⟩
      rw [hb4 _ (by omega), show off + (v - (s + off)) = v - s by omega]
      exact hg

example : ((Seg.bitmap 10 18 ⟨[0b10111011], 8⟩).slice 1 4).map Seg.iter = some [11, 13, 14] := by decide

/-- C11: a slice of a sequence lists the slice of its ids, whatever the segments are. -/
theorem C11_slice (q : Seq) (h : ∀ sg ∈ q, sg.WF) (off n : Nat) (hb : off + n ≤ (iter q).length) :
    ∃ s, slice q off n = some s ∧ s.iter = some (((iter q).drop off).take n) := by
  have := slice_spec q h off n hb
  cases e : slice q off n with
  | none => rw [e] at this; cases this
  | some s => rw [e] at this; exact ⟨s, rfl, this⟩

/-- C11: reading one position. -/
theorem C11_get (q : Seq) (h : ∀ sg ∈ q, sg.WF) (i : Nat) : q.get i = (iter q)[i]? := by
  have := getFrom_spec q h i 0 (Nat.zero_le _)
  rw [Nat.sub_zero] at this
  exact this

theorem sliceIds_eq (q : Seq) (h : ∀ sg ∈ q, sg.WF) (off n : Nat) (hb : off + n ≤ (iter q).length) :
    sliceIds q off n = .ok (((iter q).drop off).take n) := by
  unfold sliceIds
  rw [slice_spec q h off n hb]

/-- The ids asked for by read parameters; `none`: some position does not exist. -/
def selected (l : List Nat) : Params → Option (List Nat)
  | .range s e => if s ≤ e ∧ e ≤ l.length then some ((l.drop s).take (e - s)) else none
  | .full => some l
  | .to e => if e ≤ l.length then some (l.take e) else none
  | .from s => if s ≤ l.length then some (l.drop s) else none
  | .indices is => if ∀ i ∈ is, i < l.length then some (is.map (fun i => l.getD i 0)) else none

theorem sequence_none {α : Type} (l : List (Option α)) : none ∈ l → sequence l = none := by
  induction l with
  | nil => intro h; cases h
  | cons x xs ih =>
    intro h
    cases x with
    | none => rfl
    | some x =>
      simp only [List.mem_cons, reduceCtorEq, false_or] at h
      simp [sequence, ih h]

/-- C11: selecting the ids for read parameters gives the ids at the positions asked for, and an
error (or a panic, for inverted ranges and `start..` beyond the end) when some do not exist. -/
theorem C11_select (q : Seq) (h : ∀ sg ∈ q, sg.WF) (p : Params) :
    (∀ ids, selected (iter q) p = some ids → select q p = .ok ids) ∧
    (selected (iter q) p = none → select q p = .error .outOfBounds ∨ select q p = .error .panic) := by
  have hl := len_eq q h
  cases p with
  | full =>
    constructor
    · intro ids e; cases e; rfl
    · intro e; cases e
  | range s e =>
    simp only [selected, select, hl]
    by_cases h1 : e ≤ (iter q).length <;> by_cases h2 : s ≤ e
    · rw [if_pos ⟨h2, h1⟩, if_neg (by omega), if_neg (by omega), sliceIds_eq q h s (e - s) (by omega)]
      exact ⟨fun ids e => (by cases e; rfl), fun e => (by cases e)⟩
    · rw [if_neg (by omega), if_neg (by omega), if_pos (by omega)]
      exact ⟨fun ids e => (by cases e), fun _ => Or.inr rfl⟩
    · rw [if_neg (by omega), if_pos (by omega)]
      exact ⟨fun ids e => (by cases e), fun _ => Or.inl rfl⟩
    · rw [if_neg (by omega), if_pos (by omega)]
      exact ⟨fun ids e => (by cases e), fun _ => Or.inl rfl⟩
  | to e =>
    simp only [selected, select, hl]
    by_cases h1 : e ≤ (iter q).length
    · rw [if_pos h1, if_neg (by omega), sliceIds_eq q h 0 e (by omega), List.drop_zero]
      exact ⟨fun ids e => (by cases e; rfl), fun e => (by cases e)⟩
    · rw [if_neg h1, if_pos (by omega)]
      exact ⟨fun ids e => (by cases e), fun _ => Or.inl rfl⟩
  | «from» s =>
    simp only [selected, select, hl]
    by_cases h1 : s ≤ (iter q).length
    · rw [if_pos h1, if_neg (by omega), sliceIds_eq q h s _ (by omega),
        List.take_of_length_le (by rw [List.length_drop]; omega)]
      exact ⟨fun ids e => (by cases e; rfl), fun e => (by cases e)⟩
    · rw [if_neg h1, if_pos (by omega)]
      exact ⟨fun ids e => (by cases e), fun _ => Or.inr rfl⟩
  | indices is =>
    simp only [selected, select]
    by_cases h1 : ∀ i ∈ is, i < (iter q).length
    · rw [if_pos h1, sequence_map_some is q.get (fun i => (iter q).getD i 0)]
      · exact ⟨fun ids e => (by cases e; rfl), fun e => (by cases e)⟩
      · intro i hi
        rw [C11_get q h i, List.getD_eq_getElem?_getD, List.getElem?_eq_getElem (h1 i hi)]; rfl
    · rw [if_neg h1, sequence_none]
      · exact ⟨fun ids e => (by cases e), fun _ => Or.inl rfl⟩
      · rw [List.mem_map]
        have h1' : ∃ i, i ∈ is ∧ ¬ i < (iter q).length := by
          apply Classical.byContradiction
          intro hne
          apply h1
          intro i hi
          apply Classical.byContradiction
          intro hlt
          exact hne ⟨i, hi, hlt⟩
        obtain ⟨i, hi, hge⟩ := h1'
        exact ⟨i, hi, by rw [C11_get q h i, List.getElem?_eq_none (by omega)]⟩

/-- C11, full statement: re-chunking keeps every id once and in order, in chunks of the sizes asked
for. -/
def C11_rechunk_statement : Prop :=
  ∀ (seqs : List Seq) (sizes : List Nat), (∀ q ∈ seqs, ∀ sg ∈ q, sg.WF) →
    sizes.sum = (seqs.flatMap iter).length →
    ∃ cs, rechunk seqs sizes = .ok cs ∧ cs.flatMap iter = seqs.flatMap iter ∧ cs.map (fun c => (iter c).length) = sizes

/-- C11 fails for re-chunking: one sequence `0..10` without `3`, split in chunks of 5 and 4 rows,
loses ids.  Compaction of a fragment with deletions under stable row ids does exactly this. -/
theorem C11_rechunk_violated : ¬ C11_rechunk_statement := by
  intro h
  obtain ⟨cs, h1, h2, h3⟩ := h [[holesWitness]] [5, 4] (by
    intro q hq sg hsg
    simp only [List.mem_singleton] at hq
    subst hq
    simp only [List.mem_singleton] at hsg
    subst hsg
    exact holesWitness_wf) (by decide)
  have e : ∃ cs, rechunk [[holesWitness]] [5, 4] = .ok cs ∧ cs.flatMap iter ≠ [[holesWitness]].flatMap iter :=
    ⟨_, rfl, by decide⟩
  obtain ⟨cs', e1, e2⟩ := e
  rw [e1] at h1
  cases h1
  exact e2 h2

/-- C11 fails also without holes: an empty segment ends the current chunk early (rowids.rs:417-422),
so two rows asked for in one chunk are not all delivered and the call fails. -/
theorem C11_rechunk_empty_segment_violated :
    (∀ sg ∈ ([.range 5 5, .range 0 2] : Seq), sg.WF ∧ sg.Sliceable) ∧
    rechunk [[.range 5 5, .range 0 2]] [2] = .error .tooFew := by
  refine ⟨?_, rfl⟩
  intro sg hsg
  simp only [List.mem_cons, List.not_mem_nil, or_false] at hsg
  rcases hsg with rfl | rfl <;> exact ⟨by simp [Seg.WF], trivial⟩

/-- C11: re-chunking sequences of nonempty ranges and arrays: it succeeds exactly when the sizes
add up to the number of ids, keeps every id once and in order and gives chunks of the sizes asked
for; otherwise it returns an error.  Missing: ranges with holes or bitmap and empty segments (false,
see above). -/
theorem C11_rechunk_partial (seqs : List Seq) (sizes : List Nat)
    (h : ∀ q ∈ seqs, ∀ sg ∈ q, sg.WF ∧ sg.Sliceable ∧ sg.iter ≠ []) :
    (sizes.sum = (seqs.flatMap iter).length →
      ∃ cs, rechunk seqs sizes = .ok cs ∧ cs.flatMap iter = seqs.flatMap iter ∧
        cs.map (fun c => (iter c).length) = sizes ∧ ∀ c ∈ cs, ∀ sg ∈ c, sg.WF) ∧
    ((seqs.flatMap iter).length < sizes.sum → rechunk seqs sizes = .error .tooMany) ∧
    (sizes.sum < (seqs.flatMap iter).length → rechunk seqs sizes = .error .tooFew) := by
  have hc : ∀ sg ∈ seqs.flatten, Chunkable sg := by
    intro sg hsg
    obtain ⟨q, hq, hsq⟩ := List.mem_flatten.1 hsg
    exact h q hq sg hsq
  have ho : OffsetOk seqs.flatten 0 := by
    cases e : seqs.flatten with
    | nil => rfl
    | cons sg rest => exact List.length_pos_iff.2 (hc sg (by rw [e]; exact List.mem_cons_self)).2.2
  obtain ⟨s1, s2⟩ := chunksLoop_spec sizes seqs.flatten hc 0 ho
  rw [iter_flatten] at s1 s2
  simp only [Nat.sub_zero, List.drop_zero] at s1 s2
  refine ⟨?_, ?_, ?_⟩
  · intro hsum
    obtain ⟨cs, left, offl, c1, c2, c3, c4, c5⟩ := s1 (by omega)
    have hleft : left = [] := by
      cases left with
      | nil => rfl
      | cons sg rest =>
        exfalso
        have : ((iter (sg :: rest)).drop offl).length = 0 := by
          rw [c4, List.length_drop]; omega
        rw [List.length_drop, iter_cons, List.length_append] at this
        have h3 : offl < sg.iter.length := c3
        omega
    refine ⟨cs, ?_, ?_, ?_, c5⟩
    · unfold rechunk; rw [c1, hleft]; rfl
    · rw [List.flatMap_def, c2, cut_flatten _ _ hsum]
    · rw [← cut_lengths sizes (seqs.flatMap iter) (by omega), ← c2, List.map_map]; rfl
  · intro hlt
    unfold rechunk
    rw [s2 hlt]
  · intro hlt
    obtain ⟨cs, left, offl, c1, c2, c3, c4, c5⟩ := s1 (by omega)
    have hleft : left.isEmpty = false := by
      cases left with
      | nil =>
        have : ([] : List Nat).length = ((seqs.flatMap iter).drop sizes.sum).length := by
          rw [← c4]; simp [iter]
        rw [List.length_drop, List.length_nil] at this
        omega
      | cons => rfl
    unfold rechunk
    rw [c1]
    simp [hleft]

/-! ## C12 -/

/-- C12: extending a sequence appends the ids. -/
theorem C12_extend (q o : Seq) (hq : ∀ sg ∈ q, sg.WF) (ho : ∀ sg ∈ o, sg.WF) :
    iter (extend q o) = iter q ++ iter o ∧ ∀ sg ∈ extend q o, sg.WF :=
  extend_spec q o hq ho

/-- C12, full statement of deletion. -/
def C12_delete_statement : Prop :=
  ∀ (q : Seq) (ids : List Nat), (∀ sg ∈ q, sg.Good ∧ Small sg.iter) →
    ∃ q', delete q ids = some q' ∧ iter q' = (iter q).filter (fun v => !ids.contains v)

/-- C12 fails when the list of ids to delete holds an id twice: deleting `[3, 3, 5]` from `[1, 3, 5]` keeps `5`
(the merge of the sorted ids and the segment consumes one id per value, segment.rs). -/
theorem C12_delete_violated : ¬ C12_delete_statement := by
  intro h
  obtain ⟨q', h1, h2⟩ := h [.sorted (.u64 [1, 3, 5])] [3, 3, 5] (by
    intro sg hsg
    simp only [List.mem_singleton] at hsg
    subst hsg
    refine ⟨⟨?_, ?_⟩, ?_⟩
    · refine ⟨?_, ?_⟩
      · simp [Enc.WF]
      · decide
    · intro e; simp [Seg.iter, Enc.iter] at e
    · refine ⟨?_, ?_⟩ <;> simp [Seg.iter, Enc.iter]) 
  have e : ∀ q', delete [.sorted (.u64 [1, 3, 5])] [3, 3, 5] = some q' → iter q' ≠ ([1, 3, 5] : List Nat).filter (fun v => !([3, 3, 5] : List Nat).contains v) := by
    have : (match delete [.sorted (.u64 [1, 3, 5])] [3, 3, 5] with
      | none => true
      | some q' => decide (iter q' ≠ ([1, 3, 5] : List Nat).filter (fun v => !([3, 3, 5] : List Nat).contains v))) = true := by
      decide +kernel
    intro q' hq'
    rw [hq'] at this
    simpa using this
  exact e q' h1 h2

/-- C12: deleting distinct ids (in any order, present or not) removes exactly these and keeps the
order of the others.  Missing: repeated ids in the argument (false, see above). -/
theorem C12_delete_partial (q : Seq) (ids : List Nat) (hn : ids.Nodup) (hq : ∀ sg ∈ q, sg.Good ∧ Small sg.iter) :
    ∃ q', delete q ids = some q' ∧ (∀ sg ∈ q', sg.Good) ∧ iter q' = (iter q).filter (fun v => !ids.contains v) := by
  obtain ⟨q', h1, h2⟩ := delete_spec q ids hn hq
  exact ⟨q', h1, h2⟩

/-- The ids at the positions that are not in `ps`. -/
def withoutPositions (ps l : List Nat) : List Nat :=
  (l.zipIdx.filter (fun p => !ps.contains p.2)).map Prod.fst

theorem dropFrom_eq_zipIdx (c : Nat) (ps l : List Nat) :
    dropFrom c ps l = ((l.zipIdx c).filter (fun p => !ps.contains p.2)).map Prod.fst := by
  induction l generalizing c with
  | nil => rfl
  | cons x xs ih =>
    have := dropFrom_append c ps [x] xs
    rw [List.singleton_append] at this
    rw [this, List.length_singleton, ih, List.zipIdx_cons, List.filter_cons]
    unfold dropFrom
    simp only [List.length_singleton, List.range', List.filter_cons]
    cases ps.contains c <;> simp

/-- C12: masking (strictly increasing) positions removes exactly the ids at these positions.
`mask` takes positions as `u32`, so the sequence holds fewer than `2^32` ids. -/
theorem C12_mask (q : Seq) (hq : ∀ sg ∈ q, sg.Good ∧ Small sg.iter) (ps : List Nat)
    (hinc : ps.Pairwise (· < ·)) (hb : ∀ p ∈ ps, p < (iter q).length) (hl : (iter q).length < 4294967296) :
    ∃ q', mask q ps = some q' ∧ iter q' = withoutPositions ps (iter q) ∧
      ∀ sg ∈ q', sg.Good ∧ sg.iter ≠ [] := by
  obtain ⟨q', h1, h2, h3⟩ := maskLoop_spec q hq ps 0 hinc (fun p hp => ⟨Nat.zero_le _, by have := hb p hp; omega⟩) (by omega)
  refine ⟨_, by unfold mask; rw [h1]; rfl, ?_, ?_⟩
  · rw [iter_filter_nonempty q' (fun sg hsg => (h2 sg hsg).1), h3, dropFrom_eq_zipIdx]; rfl
  · intro sg hsg
    obtain ⟨m1, m2⟩ := List.mem_filter.1 hsg
    refine ⟨h2 sg m1, fun e => ?_⟩
    have := Seg.len_eq sg (h2 sg m1).1
    rw [e] at this
    simp [this] at m2

/-- C12, full statement of the conversion to a row set. -/
def C12_row_set_statement : Prop :=
  ∀ q : Seq, (∀ sg ∈ q, sg.Good ∧ Small sg.iter) → (iter q).Nodup →
    ∃ m, toTreeMap q = some m ∧ ∀ w, w < U64 → (RowSet.contains m w = true ↔ w ∈ iter q)

/-- C12 fails for the conversion to a row set: the ids `[3]` followed by `0..10` without `3` is a
sequence of ten distinct ids, but the holes of the second segment remove id 3 again
(rowids.rs:318-325). -/
theorem C12_row_set_violated : ¬ C12_row_set_statement := by
  intro h
  obtain ⟨m, h1, h2⟩ := h [.range 3 4, holesWitness] (by
    intro sg hsg
    simp only [List.mem_cons, List.not_mem_nil, or_false] at hsg
    rcases hsg with rfl | rfl
    · exact ⟨⟨by simp [Seg.WF], fun _ => ⟨3, 4, rfl⟩⟩, by refine ⟨?_, ?_⟩ <;> simp [Seg.iter, List.range']⟩
    · refine ⟨⟨holesWitness_wf, fun e => absurd e (by decide)⟩, ?_⟩
      have e : holesWitness.iter = [0, 1, 2, 4, 5, 6, 7, 8, 9] := by decide
      rw [e]
      refine ⟨?_, ?_⟩ <;> simp) (by decide)
  have e : (toTreeMap [.range 3 4, holesWitness]).map (fun m => RowSet.contains m 3) = some false := by
    decide +kernel
  rw [h1] at e
  have := (h2 3 (by omega)).2 (by decide)
  simp [this] at e

/-- C12 fails also for the empty range `0..0`, which inserts row 0. -/
theorem C12_row_set_empty_violated :
    (Seg.range 0 0).Good ∧ (toTreeMap [.range 0 0]).map (fun m => RowSet.contains m 0) = some true :=
  ⟨⟨by simp [Seg.WF], fun _ => ⟨0, 0, rfl⟩⟩, by decide +kernel⟩

/-- C12: the row set of a sequence holds exactly its ids, if no later segment has a gap at an id of
an earlier one, no range is `0..0` and ids stay below the last fragment.  Missing: the other
sequences (false, see above). -/
theorem C12_row_set_partial (q : Seq) (hq : ∀ sg ∈ q, Convertible sg)
    (hp : q.Pairwise (fun a b => ∀ v ∈ a.iter, ¬ gap b v)) :
    ∃ m, toTreeMap q = some m ∧ ∀ w, w < U64 → (RowSet.contains m w = true ↔ w ∈ iter q) := by
  obtain ⟨m, h1, h2⟩ := foldl_addSeg q hq [] (by simp [SMap.Sorted]) (fun _ => False) (by
    intro w _; simp [RowSet.contains, SMap.get])
  refine ⟨m, h1, fun w hw => ?_⟩
  rw [h2 w (by omega), convSpec_of_disjoint q _ w (fun h => h.elim) hp]
  simp

/-! ## Concrete cases -/

/-- A sequence with three kinds of segments. -/
def sample : Seq := [.range 4 8, .holes 10 20 (.u64 [13]), .array (.u16 31 [4, 0])]

example : iter sample = [4, 5, 6, 7, 10, 11, 12, 14, 15, 16, 17, 18, 19, 35, 31] := by decide
example : (slice sample 2 4).bind Slice.iter = some [6, 7, 10, 11] := by decide
example : sample.get 14 = some 31 := by decide
example : (mask sample [0, 5, 14]).map iter = some [5, 6, 7, 10, 12, 14, 15, 16, 17, 18, 19, 35] := by decide +kernel
example : (delete sample [35, 99, 4]).map iter = some [5, 6, 7, 10, 11, 12, 14, 15, 16, 17, 18, 19, 31] := by decide +kernel
example : ∃ cs, rechunk [[.range 0 4, .array (.u64 [9, 7])], [.range 20 23]] [3, 4, 2] = .ok cs ∧
    cs.map iter = [[0, 1, 2], [3, 9, 7, 20], [21, 22]] := ⟨_, rfl, by decide⟩
example : ∀ sg ∈ sample, sg.Good := by
  intro sg hsg
  simp only [sample, List.mem_cons, List.not_mem_nil, or_false] at hsg
  rcases hsg with rfl | rfl | rfl
  · exact ⟨by simp [Seg.WF], fun _ => ⟨4, 8, rfl⟩⟩
  · refine ⟨⟨by decide, by decide, by simp [Enc.WF], by decide, ?_⟩, fun e => absurd e (by decide)⟩
    intro v hv; simp [Enc.iter] at hv; omega
  · refine ⟨⟨?_, by decide⟩, fun e => absurd e (by decide)⟩
    simp [Enc.WF]
example : sample.Pairwise (fun a b => ∀ v ∈ a.iter, ¬ gap b v) := by
  refine List.Pairwise.cons ?_ (List.Pairwise.cons ?_ (List.Pairwise.cons ?_ List.Pairwise.nil))
  · intro b hb v hv
    simp only [List.mem_cons, List.not_mem_nil, or_false] at hb
    simp [Seg.iter, List.range'] at hv
    rcases hb with rfl | rfl <;> simp [gap] <;> omega
  · intro b hb v hv
    simp only [List.mem_cons, List.not_mem_nil, or_false] at hb
    subst hb; simp [gap]
  · intro b hb; cases hb

end Seq
end Verif.RowIds
