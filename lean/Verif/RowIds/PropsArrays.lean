import Verif.RowIds.EncodedLemmas
import Verif.RowIds.BitmapLemmas

/-!
# C08 compressed integer arrays, C09 bitmaps
-/
namespace Verif.RowIds
open Verif.Deletion (countBelow countBelow_congr)

/-! ## C08 -/

/-- C08: reading an encoded list back: iteration, length, random access, first, last, min, max. -/
theorem C08_encoded_roundtrip (l : List Nat) :
    (Enc.ofList l).iter = l ∧ (Enc.ofList l).len = l.length ∧
    (∀ i, (Enc.ofList l).get i = l[i]?) ∧
    (Enc.ofList l).first = l.head? ∧ (Enc.ofList l).last = l.getLast? ∧
    (Enc.ofList l).min = l.min? ∧ (Enc.ofList l).max = l.max? := by
  have h := Enc.iter_ofList l
  refine ⟨h, ?_, ?_, ?_, ?_, ?_, ?_⟩
  · rw [Enc.len_eq, h]
  · intro i; rw [Enc.get_eq, h]
  · rw [Enc.first_eq, h]
  · rw [Enc.last_eq, h]
  · rw [Enc.min_eq _ (Enc.wf_ofList l), h]
  · rw [Enc.max_eq, h]

/-- C08: a slice inside the bounds is the slice of the values. -/
theorem C08_encoded_slice (l : List Nat) (off len : Nat) (h : off + len ≤ l.length) :
    ∃ e, (Enc.ofList l).slice off len = some e ∧ e.iter = (l.drop off).take len ∧ e.len = len ∧
      (∀ i, e.get i = ((l.drop off).take len)[i]?) ∧
      e.min = ((l.drop off).take len).min? ∧ e.max = ((l.drop off).take len).max? := by
  obtain ⟨e, h1, h2, h3⟩ := Enc.slice_some (Enc.ofList l) off len (by rw [Enc.len_eq, Enc.iter_ofList]; exact h)
  rw [Enc.iter_ofList] at h2
  refine ⟨e, h1, h2, ?_, fun i => by rw [Enc.get_eq, h2], by rw [Enc.min_eq e h3, h2], by rw [Enc.max_eq, h2]⟩
  rw [Enc.len_eq, h2, List.length_take, List.length_drop]; omega

theorem getElem?_idxOf_mem {l : List Nat} {v : Nat} (h : v ∈ l) : l[l.idxOf v]? = some v := by
  rw [List.getElem?_eq_getElem (List.idxOf_lt_length_iff.2 h), List.getElem_idxOf]

/-- C08: binary search finds exactly the stored values and reports a position holding the value. -/
theorem C08_encoded_search (l : List Nat) (v : Nat) :
    (∀ i, (Enc.ofList l).search v = .ok i → l[i]? = some v) ∧
    (∀ i, (Enc.ofList l).search v = .error i → v ∉ l) := by
  rw [Enc.search_eq _ (Enc.wf_ofList l), Enc.iter_ofList]
  unfold Enc.binSearch
  split
  · rename_i hc
    have hm : v ∈ l := by simpa using hc
    refine ⟨?_, fun i e => (by cases e)⟩
    intro i e
    cases e
    exact getElem?_idxOf_mem hm
  · rename_i hc
    refine ⟨fun i e => (by cases e), ?_⟩
    intro i _ hm
    exact hc (by simpa using hm)

/-- C08: on sorted values a failed search reports the insertion point: everything before it is
smaller, everything from it on is larger. -/
theorem C08_encoded_search_insertion (l : List Nat) (hs : l.Pairwise (· < ·)) (v i : Nat)
    (h : (Enc.ofList l).search v = .error i) :
    (∀ x ∈ l.take i, x < v) ∧ (∀ x ∈ l.drop i, v < x) := by
  rw [Enc.search_eq _ (Enc.wf_ofList l), Enc.iter_ofList] at h
  unfold Enc.binSearch at h
  split at h
  · cases h
  · rename_i hc
    cases h
    have hv : v ∉ l := by simpa using hc
    clear hc
    induction l with
    | nil => simp
    | cons x xs ih =>
      obtain ⟨hx, hxs⟩ := List.pairwise_cons.1 hs
      have hvx : v ≠ x := fun e => hv (by simp [e])
      have hvxs : v ∉ xs := fun e => hv (by simp [e])
      by_cases hlt : x < v
      · have ih' := ih hxs hvxs
        simp only [List.countP_cons, hlt, decide_true, if_true, List.take_succ_cons, List.drop_succ_cons,
          List.mem_cons]
        refine ⟨?_, ih'.2⟩
        rintro y (rfl | hy)
        · exact hlt
        · exact ih'.1 y hy
      · have h0 : (x :: xs).countP (fun y => decide (y < v)) = 0 := by
          rw [List.countP_eq_zero]
          intro y hy
          rcases List.mem_cons.1 hy with rfl | hy
          · simpa using hlt
          · have := hx y hy; simp; omega
        rw [h0]
        simp only [List.take_zero, List.drop_zero, List.mem_cons]
        refine ⟨by simp, ?_⟩
        rintro y (rfl | hy)
        · omega
        · have := hx y hy; omega

/-- C08: encoding a range. -/
theorem C08_encoded_range (a b : Nat) : (Enc.ofRange a b).iter = List.range' a (b - a) :=
  Enc.iter_ofRange a b

/-- Non-trivial cases: all three widths. -/
example : Enc.ofList [70, 3, 65538] = .u16 3 [67, 0, 65535] := by decide
example : Enc.ofList [70, 3, 65539] = .u32 3 [67, 0, 65536] := by decide
example : Enc.ofList [70, 3, 4294967299] = .u64 [70, 3, 4294967299] := by decide
example : (Enc.ofList [3, 70, 65539]).search 71 = .error 2 := by rfl
example : ([3, 70, 65539] : List Nat).Pairwise (· < ·) := by decide

/-! ## C09 -/

/-- A write to a bitmap. -/
inductive BmOp where
  | set (i : Nat)
  | clear (i : Nat)

def BmOp.pos : BmOp → Nat
  | set i => i
  | clear i => i

def BmOp.val : BmOp → Bool
  | set _ => true
  | clear _ => false

/-- Execute writes in order with the modelled code. -/
def runOps : List BmOp → Bitmap → Option Bitmap
  | [], b => some b
  | .set i :: ops, b => (b.set i).bind (runOps ops)
  | .clear i :: ops, b => (b.clear i).bind (runOps ops)

/-- Specification: the last write to position `i`, or the initial value. -/
def lastWrite (init : Bool) (ops : List BmOp) (i : Nat) : Bool :=
  match ops.reverse.find? (fun o => o.pos == i) with
  | some o => o.val
  | none => init

theorem lastWrite_cons (init : Bool) (o : BmOp) (ops : List BmOp) (i : Nat) :
    lastWrite init (o :: ops) i = lastWrite (if o.pos = i then o.val else init) ops i := by
  unfold lastWrite
  simp only [List.reverse_cons, List.find?_append]
  cases ops.reverse.find? (fun o => o.pos == i) with
  | some o' => simp
  | none =>
    by_cases h : o.pos = i <;> simp [h]

theorem runOps_spec (ops : List BmOp) (b : Bitmap) (hwf : b.WF) (h : ∀ o ∈ ops, o.pos < b.len) :
    ∃ b', runOps ops b = some b' ∧ b'.WF ∧ b'.len = b.len ∧
      ∀ i, bit b'.data i = lastWrite (bit b.data i) ops i := by
  induction ops generalizing b with
  | nil => exact ⟨b, rfl, hwf, rfl, fun i => rfl⟩
  | cons o ops ih =>
    have ho := h o List.mem_cons_self
    have hrest : ∀ o ∈ ops, o.pos < b.len := fun o' ho' => h o' (List.mem_cons_of_mem _ ho')
    have hlen := hwf.1
    cases o with
    | set i =>
      simp only [BmOp.pos] at ho
      have : ∃ b1, b.set i = some b1 := by
        unfold Bitmap.set; rw [if_pos (by omega)]; exact ⟨_, rfl⟩
      obtain ⟨b1, hb1⟩ := this
      obtain ⟨s1, s2, s3⟩ := Bitmap.bit_set b b1 i hb1
      have hwf1 : b1.WF := by
        refine ⟨by omega, ?_⟩
        intro j hj
        rw [s3, hwf.2 j (by omega)]
        simp; omega
      obtain ⟨b', e1, e2, e3, e4⟩ := ih b1 hwf1 (by rw [s1]; exact hrest)
      refine ⟨b', by simp [runOps, hb1, e1], e2, by omega, ?_⟩
      intro j
      rw [e4, s3, lastWrite_cons]
      congr 1
      by_cases hj : i = j
      · subst hj; simp [BmOp.pos, BmOp.val]
      · simp [BmOp.pos, hj, Ne.symm hj]
    | clear i =>
      simp only [BmOp.pos] at ho
      have : ∃ b1, b.clear i = some b1 := by
        unfold Bitmap.clear; rw [if_pos (by omega)]; exact ⟨_, rfl⟩
      obtain ⟨b1, hb1⟩ := this
      obtain ⟨s1, s2, s3⟩ := Bitmap.bit_clear b b1 i hb1
      have hwf1 : b1.WF := by
        refine ⟨by omega, ?_⟩
        intro j hj
        rw [s3, hwf.2 j (by omega)]
        simp
      obtain ⟨b', e1, e2, e3, e4⟩ := ih b1 hwf1 (by rw [s1]; exact hrest)
      refine ⟨b', by simp [runOps, hb1, e1], e2, by omega, ?_⟩
      intro j
      rw [e4, s3, lastWrite_cons]
      congr 1
      by_cases hj : i = j
      · subst hj; simp [BmOp.pos, BmOp.val]
      · simp [BmOp.pos, hj, Ne.symm hj]

theorem wf_reads (b : Bitmap) (hwf : b.WF) (f : Nat → Bool) (hf : ∀ i, i < b.len → bit b.data i = f i) :
    (∀ i, i < b.len → b.get i = some (f i)) ∧
    b.countOnes = countBelow f b.len ∧
    b.countZeros = some (countBelow (fun i => !f i) b.len) ∧
    (∀ start len, start + len ≤ b.len →
      b.sliceCountOnes start len = some (countBelow (fun i => f (start + i)) len) ∧
      b.sliceCountZeros start len = some (countBelow (fun i => !f (start + i)) len)) := by
  have hlen := hwf.1
  have hones : b.countOnes = countBelow f b.len := by
    rw [Bitmap.countOnes_eq, Bitmap.countBelow_zero_above _ b.len _ (by omega) hwf.2]
    exact countBelow_congr hf
  refine ⟨?_, hones, ?_, ?_⟩
  · intro i hi
    rw [Bitmap.get_eq b i (by omega), hf i hi]
  · have := Verif.Deletion.countBelow_not f b.len
    unfold Bitmap.countZeros
    rw [hones, if_pos (by omega)]
    congr 1; omega
  · intro start len h
    obtain ⟨n, h1, h2⟩ := Bitmap.sliceCountOnes_eq b start len (by omega)
    rw [Bitmap.countBelow_split] at h2
    have hn : n = countBelow (fun i => f (start + i)) len := by
      have : countBelow (fun i => bit b.data (start + i)) len = countBelow (fun i => f (start + i)) len :=
        countBelow_congr (fun i hi => hf (start + i) (by omega))
      omega
    have hcomp := Verif.Deletion.countBelow_not (fun i => f (start + i)) len
    refine ⟨by rw [h1, hn], ?_⟩
    unfold Bitmap.sliceCountZeros
    rw [h1]
    simp only [Option.bind]
    rw [if_pos (by omega)]
    congr 1; omega

/-- C09: after any writes inside the bounds, starting from an empty (`full = false`) or a full
bitmap, reading gives the last write and all counts agree with the written positions. -/
theorem C09_bitmap (full : Bool) (n : Nat) (ops : List BmOp) (h : ∀ o ∈ ops, o.pos < n) :
    ∃ b, runOps ops (if full then Bitmap.newFull n else Bitmap.newEmpty n) = some b ∧
      (∀ i, i < n → b.get i = some (lastWrite full ops i)) ∧
      b.countOnes = countBelow (lastWrite full ops) n ∧
      b.countZeros = some (countBelow (fun i => !lastWrite full ops i) n) ∧
      (∀ start len, start + len ≤ n →
        b.sliceCountOnes start len = some (countBelow (fun i => lastWrite full ops (start + i)) len) ∧
        b.sliceCountZeros start len = some (countBelow (fun i => !lastWrite full ops (start + i)) len)) := by
  have hinit : ∃ b0, (if full then Bitmap.newFull n else Bitmap.newEmpty n) = b0 ∧ b0.WF ∧ b0.len = n ∧
      ∀ i, i < n → bit b0.data i = full := by
    cases full with
    | true =>
      refine ⟨_, rfl, Bitmap.wf_newFull n, Bitmap.len_newFull n, ?_⟩
      intro i hi
      simp only [if_true]
      rw [Bitmap.bit_newFull]; simpa using hi
    | false =>
      exact ⟨_, rfl, Bitmap.wf_newEmpty n, rfl, fun i _ => Bitmap.bit_newEmpty n i⟩
  obtain ⟨b0, e0, hwf0, hl0, hb0⟩ := hinit
  rw [e0]
  obtain ⟨b, h1, h2, h3, h4⟩ := runOps_spec ops b0 hwf0 (by rw [hl0]; exact h)
  refine ⟨b, h1, ?_⟩
  have hl : b.len = n := by omega
  have := wf_reads b h2 (lastWrite full ops) (by
    intro i hi
    rw [h4, hb0 i (by omega)])
  rw [hl] at this
  exact this

/-- C09: copying a slice into a new bitmap keeps its bits. -/
theorem C09_slice_copy (b : Bitmap) (hwf : b.WF) (start len : Nat) (h : start + len ≤ b.len) :
    ∃ b', b.fromSlice start len = some b' ∧ b'.len = len ∧ b'.WF ∧
      ∀ i, i < len → b'.get i = b.get (start + i) := by
  have hlen := hwf.1
  obtain ⟨b', h1, h2, h3, h4⟩ := Bitmap.fromSliceLoop_spec b start len 0 (Bitmap.newEmpty len) (by omega)
    (by simp [Bitmap.newEmpty])
  have hl' : b'.data.length = (len + 7) / 8 := by rw [h3]; simp [Bitmap.newEmpty]
  refine ⟨b', h1, h2, ⟨by rw [hl', h2]; rfl, ?_⟩, ?_⟩
  · intro i hi
    rw [h2] at hi
    have hi' : len ≤ i := hi
    rw [h4, Bitmap.bit_newEmpty]
    have : ¬ (0 ≤ i ∧ i < 0 + len) := by omega
    simp only [this]; simp
  · intro i hi
    rw [Bitmap.get_eq b' i (by omega), Bitmap.get_eq b (start + i) (by omega), h4, Bitmap.bit_newEmpty]
    have : (0 ≤ i ∧ i < 0 + len) := by omega
    simp only [this]; simp

/-- C09: building from booleans. -/
theorem C09_from_bools (l : List Bool) :
    ∃ b, Bitmap.fromBools l = some b ∧ b.WF ∧ b.len = l.length ∧ ∀ i, i < l.length → b.get i = l[i]? := by
  obtain ⟨b', h1, h2, h3, h4⟩ := Bitmap.fromBoolsLoop_spec l 0 (Bitmap.newEmpty l.length)
    (by simp [Bitmap.newEmpty])
  have hl' : b'.data.length = (l.length + 7) / 8 := by rw [h3]; simp [Bitmap.newEmpty]
  refine ⟨b', h1, ⟨by rw [hl', h2]; rfl, ?_⟩, h2, ?_⟩
  · intro i hi
    rw [h2] at hi
    have hi' : l.length ≤ i := hi
    rw [h4, Bitmap.bit_newEmpty]
    simp [List.getD_eq_getElem?_getD, hi']
  · intro i hi
    rw [Bitmap.get_eq b' i (by omega), h4, Bitmap.bit_newEmpty]
    simp [List.getElem?_eq_getElem hi]

/-- Non-trivial case: 12 bits, writes in both bytes. -/
example : (runOps [.clear 3, .clear 9, .set 3] (Bitmap.newFull 12)).map
    (fun b => (b.get 3, b.get 9, b.countOnes, b.sliceCountOnes 7 4)) = some (some true, some false, 11, some 3) := by
  decide

end Verif.RowIds
