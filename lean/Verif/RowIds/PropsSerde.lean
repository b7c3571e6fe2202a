import Verif.RowIds.Serde
import Verif.RowIds.SegmentLemmas

/-! # C14 stored form of row id sequences -/
namespace Verif.RowIds
namespace Serde

theorem leBytes_length (w v : Nat) : (leBytes w v).length = w := by
  induction w generalizing v with
  | zero => rfl
  | succ w ih => simp [leBytes, ih]

theorem fromLe_leBytes (w v : Nat) (h : v < 256 ^ w) : fromLe (leBytes w v) = v := by
  induction w generalizing v with
  | zero => simp at h; simp [leBytes, fromLe, h]
  | succ w ih =>
    simp only [leBytes, fromLe]
    rw [Nat.pow_succ] at h
    rw [ih _ (Nat.div_lt_of_lt_mul (by rw [Nat.mul_comm]; exact h))]
    omega

theorem leBytes_byte (w v : Nat) : ∀ b ∈ leBytes w v, b < 256 := by
  induction w generalizing v with
  | zero => intro b hb; cases hb
  | succ w ih =>
    intro b hb
    rcases List.mem_cons.1 hb with rfl | hb
    · exact Nat.mod_lt _ (by omega)
    · exact ih _ b hb

theorem writeInts_length (w : Nat) (l : List Nat) : (writeInts w l).length = l.length * w := by
  induction l with
  | nil => simp [writeInts]
  | cons x xs ih =>
    simp only [writeInts, List.flatMap_cons, List.length_append, leBytes_length, List.length_cons] at ih ⊢
    rw [ih, Nat.add_mul]; omega

theorem chunks_writeInts (w : Nat) (l : List Nat) :
    chunksExact w l.length (writeInts w l) = l.map (leBytes w) := by
  induction l with
  | nil => rfl
  | cons x xs ih =>
    have hl := leBytes_length w x
    simp only [writeInts, List.flatMap_cons, List.length_cons, chunksExact, List.map_cons] at ih ⊢
    rw [List.take_append_of_le_length (by omega), List.take_of_length_le (by omega),
      List.drop_append_of_le_length (by omega), List.drop_eq_nil_of_le (as := leBytes w x) (by omega),
      List.nil_append, ih]

theorem readInts_writeInts (w : Nat) (hw : 0 < w) (l : List Nat) (h : ∀ v ∈ l, v < 256 ^ w) :
    readInts w (writeInts w l) = .ok l := by
  unfold readInts
  rw [writeInts_length, if_pos (Nat.mul_mod_left _ _), Nat.mul_div_cancel _ hw, chunks_writeInts, List.map_map]
  congr 1
  rw [List.map_congr_left (g := id)]
  · simp
  · intro v hv; exact fromLe_leBytes w v (h v hv)

/-- The integers of an array fit their machine types. -/
def TypedArr : Enc → Prop
  | .u16 _ o => ∀ v ∈ o, v < 65536
  | .u32 _ o => ∀ v ∈ o, v < 4294967296
  | .u64 v => ∀ x ∈ v, x < U64

/-- The integers fit their machine types, and a bitmap has one bit per id of its range (the
invariant of `RangeWithBitmap`, C10). -/
def TypedSeg : Seg → Prop
  | .range _ _ => True
  | .holes _ _ h => TypedArr h
  | .bitmap s e b => s ≤ e ∧ b.len = e - s
  | .sorted a => TypedArr a
  | .array a => TypedArr a

theorem decArr_encArr (a : Enc) (h : TypedArr a) : decArr (encArr a) = .ok a := by
  cases a with
  | u16 b o => simp only [encArr, decArr]; rw [readInts_writeInts 2 (by omega) o h]; rfl
  | u32 b o => simp only [encArr, decArr]; rw [readInts_writeInts 4 (by omega) o h]; rfl
  | u64 v => simp only [encArr, decArr]; rw [readInts_writeInts 8 (by omega) v h]; rfl

theorem decSeg_encSeg (sg : Seg) (h : TypedSeg sg) : decSeg (encSeg sg) = .ok sg := by
  cases sg with
  | range s e => rfl
  | holes s e hh => simp only [encSeg, decSeg]; rw [decArr_encArr hh h]; rfl
  | bitmap s e b =>
    simp only [encSeg, decSeg]
    rw [if_neg (by have := h.1; omega), ← h.2]
  | sorted a => simp only [encSeg, decSeg]; rw [decArr_encArr a h]; rfl
  | array a => simp only [encSeg, decSeg]; rw [decArr_encArr a h]; rfl

/-- C14: writing a row id sequence and reading it back gives the same sequence, segment by
segment. -/
theorem C14_roundtrip (q : Seq) (h : ∀ sg ∈ q, TypedSeg sg) : decSeq (encSeq q) = .ok q := by
  induction q with
  | nil => rfl
  | cons sg q ih =>
    simp only [encSeq, List.map_cons, decSeq] at ih ⊢
    rw [decSeg_encSeg sg (h sg List.mem_cons_self), ih (fun s hs => h s (List.mem_cons_of_mem _ hs))]

/-- C14: two different sequences are never stored as the same message. -/
theorem C14_injective (q r : Seq) (hq : ∀ sg ∈ q, TypedSeg sg) (hr : ∀ sg ∈ r, TypedSeg sg)
    (h : encSeq q = encSeq r) : q = r := by
  have h1 := C14_roundtrip q hq
  rw [h, C14_roundtrip r hr] at h1
  exact (Except.ok.inj h1).symm

/-- C14: well-formed segments of `u64` ids (those built by the code, C10) meet the condition of the
round trip. -/
theorem C14_wf_typed (sg : Seg) (h : sg.WF) (hid : ∀ v ∈ sg.iter, v < U64) : TypedSeg sg := by
  have harr : ∀ a : Enc, a.WF → (∀ v ∈ a.iter, v < U64) → TypedArr a := by
    intro a ha hv
    cases a with
    | u16 b o => intro v hm; have := ha.1 v hm; omega
    | u32 b o => intro v hm; have := ha.1 v hm; omega
    | u64 v => exact hv
  cases sg with
  | range s e => trivial
  | holes s e hh => exact harr hh h.2.2.1 (fun v hv => by have := h.2.2.2.2 v hv; have := h.2.1; omega)
  | bitmap s e b => exact ⟨by have := h.1; omega, h.2.2.2⟩
  | sorted a => exact harr a h.1 hid
  | array a => exact harr a h.1 hid

/-- C14: the offsets are stored as bytes. -/
theorem C14_bytes (w : Nat) (l : List Nat) : ∀ b ∈ writeInts w l, b < 256 := by
  intro b hb
  obtain ⟨v, _, hv⟩ := List.mem_flatMap.1 hb
  exact leBytes_byte w v b hv

/-- The sequence of the crate's own test. -/
def sample : Seq := [.range 0 20, .holes 100 200 (.u64 [104, 108, 150]),
  .bitmap 200 210 ⟨[5, 0], 10⟩, .sorted (.u16 200 [1, 2, 300]), .array (.u32 7 [70000, 0])]

example : ∀ sg ∈ sample, TypedSeg sg := by
  intro sg hsg
  simp only [sample, List.mem_cons, List.not_mem_nil, or_false] at hsg
  rcases hsg with rfl | rfl | rfl | rfl | rfl <;> simp [TypedSeg, TypedArr]
example : writeInts 2 [1, 300] = [1, 0, 44, 1] := by decide
example : decSeq (encSeq sample) = .ok sample := by rfl

end Serde
end Verif.RowIds
