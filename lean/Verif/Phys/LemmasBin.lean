import Verif.Phys.LemmasBlock
import Verif.RowIds.PropsSerde
/-! Columns of strings. -/
namespace Verif.Phys
open Verif.ListCol
open Verif.RowIds.Serde (leBytes fromLe leBytes_length fromLe_leBytes)

/-- Offsets of strings. -/
def offs (a : Nat) : List (List Nat) → List Nat
  | [] => [a]
  | s :: ss => a :: offs (a + s.length) ss

theorem offs_cons (a : Nat) : ∀ S : List (List Nat), offs a S = a :: (offs a S).tail
  | [] => rfl
  | _ :: _ => rfl

theorem offs_append (S T : List (List Nat)) : ∀ a, offs a (S ++ T) = offs a S ++ (offs (a + S.flatten.length) T).tail := by
  induction S with
  | nil => intro a; simp only [List.nil_append, List.flatten_nil, List.length_nil, Nat.add_zero, offs]; rw [offs_cons]; rfl
  | cons s ss ih =>
    intro a
    simp only [List.cons_append, offs, ih, List.flatten_cons, List.length_append, Nat.add_assoc]

theorem length_offs (S : List (List Nat)) : ∀ a, (offs a S).length = S.length + 1 := by
  induction S with
  | nil => intro a; rfl
  | cons s ss ih => intro a; simp [offs, ih]

theorem offs_last (S : List (List Nat)) : ∀ a, (offs a S).getLastD 0 = a + S.flatten.length := by
  induction S with
  | nil => intro a; simp [offs]
  | cons s ss ih =>
    intro a
    rw [offs, offs_cons]
    have := ih (a + s.length)
    rw [offs_cons] at this
    rw [List.getLastD_cons] at this ⊢
    simp only [List.flatten_cons, List.length_append]
    rw [List.getLastD_cons]
    omega

theorem offs_tail_append (S T : List (List Nat)) (a : Nat) :
    (offs a (S ++ T)).tail = (offs a S).tail ++ (offs (a + S.flatten.length) T).tail := by
  rw [offs_append]
  cases h : offs a S with
  | nil => rw [offs_cons] at h; cases h
  | cons x xs => rfl

theorem offs_map_sub (S : List (List Nat)) : ∀ a b, b ≤ a → (offs a S).map (· - b) = offs (a - b) S := by
  induction S with
  | nil => intro a b _; simp [offs]
  | cons s ss ih =>
    intro a b h
    simp only [offs, List.map_cons]
    rw [ih _ _ (by omega)]
    congr 2; omega

theorem offs_shift (S : List (List Nat)) : ∀ a b, (offs a S).map (fun x => x + b - a) = offs b S := by
  induction S with
  | nil => intro a b; simp [offs]
  | cons s ss ih =>
    intro a b
    simp only [offs, List.map_cons]
    rw [show a + b - a = b by omega]
    congr 1
    rw [← ih (a + s.length) (b + s.length)]
    apply List.map_congr_left
    intro x _; omega

theorem strs_offs (S : List (List Nat)) : ∀ (P Q : List Nat), strs (offs P.length S) (P ++ S.flatten ++ Q) = S.map .bytes := by
  induction S with
  | nil => intro P Q; rfl
  | cons s ss ih =>
    intro P Q
    rw [offs, offs_cons]
    simp only [strs, List.map_cons, List.flatten_cons]
    congr 1
    · rw [List.append_assoc, slice_append_right _ _ _ (Nat.le_refl _)]
      simp only [Nat.sub_self, Nat.add_sub_cancel_left, List.append_assoc]
      rw [slice_append_left _ _ _ (by simp)]
      rw [slice_all]
    · rw [← offs_cons]
      have := ih (P ++ s) Q
      rw [List.length_append] at this
      rw [← this]
      simp [List.append_assoc]

/-! ### from arrays -/

/-- The strings between offsets. -/
def pieces : List Nat → List Nat → List (List Nat)
  | a :: b :: os, data => slice data (a, b) :: pieces (b :: os) data
  | _, _ => []

theorem strs_pieces : ∀ (os data : List Nat), strs os data = (pieces os data).map .bytes
  | [], _ => rfl
  | [_], _ => rfl
  | a :: b :: os, data => by simp only [strs, pieces, List.map_cons]; rw [strs_pieces (b :: os) data]

theorem rising_le_last : ∀ (a : Nat) (os : List Nat), Rising (a :: os) → a ≤ (a :: os).getLastD 0
  | a, [], _ => by simp
  | a, b :: os, h => by
    have := rising_le_last b os h.2
    rw [List.getLastD_cons] at this ⊢
    rw [List.getLastD_cons]
    exact Nat.le_trans h.1 this

theorem pieces_ok (data : List Nat) : ∀ (a : Nat) (os : List Nat), Rising (a :: os) → (a :: os).getLastD 0 ≤ data.length →
    offs a (pieces (a :: os) data) = a :: os ∧ slice data (a, (a :: os).getLastD 0) = (pieces (a :: os) data).flatten
  | a, [], _, _ => ⟨rfl, by simp [pieces, slice]⟩
  | a, b :: os, h, hl => by
    have hl' : (b :: os).getLastD 0 ≤ data.length := by
      rw [List.getLastD_cons] at hl ⊢; rw [List.getLastD_cons] at hl; exact hl
    obtain ⟨h1, h2⟩ := pieces_ok data b os h.2 hl'
    have hb := rising_le_last b os h.2
    have hlen : (slice data (a, b)).length = b - a := length_slice _ _ (by simp only; omega)
    have hab : a ≤ b := h.1
    constructor
    · simp only [pieces, offs]
      rw [hlen, show a + (b - a) = b by omega, h1]
    · simp only [pieces, List.flatten_cons]
      rw [← h2]
      have e : (a :: b :: os).getLastD 0 = (b :: os).getLastD 0 := by
        rw [List.getLastD_cons, List.getLastD_cons, List.getLastD_cons]
      rw [e, slice_split data a b _ hab hb]

/-- The strings of an array. -/
def Arr.strs (a : Arr) : List (List Nat) := pieces a.strings.1 a.strings.2

theorem arr_strs {wide : Bool} {a : Arr} (h : a.HasTy (.bin wide)) :
    RawOk (.bin wide) (fun a => a.strs.map .bytes) a ∧ a.strs.length = a.len ∧
      offs (a.strings.1.headD 0) a.strs = a.strings.1 ∧
      slice a.strings.2 (a.strings.1.headD 0, a.strings.1.getLastD 0) = a.strs.flatten := by
  cases a <;> simp only [Arr.HasTy] at h
  rename_i v os data
  obtain ⟨h1, h2, h3, h4⟩ := h
  cases os with
  | nil => exact absurd rfl h2
  | cons o os =>
    obtain ⟨e1, e2⟩ := pieces_ok data o os h3 h4
    have hl : (pieces (o :: os) data).length = os.length := by
      have := congrArg List.length e1
      rw [length_offs] at this
      simpa using this
    refine ⟨⟨?_, by simpa [Arr.strs, Arr.strings, Arr.len] using hl, ?_⟩, by simpa [Arr.strs, Arr.strings, Arr.len] using hl, e1, e2⟩
    · simp only [Arr.vals, Arr.strs, Arr.strings]
      rw [strs_pieces]
      exact maskO_eq v _ _ (by simp [Arr.len, hl])
    · exact flags_len h1

theorem stitch_ok : ∀ (arrays : List Arr) (D : List (List Nat)), (∀ a ∈ arrays, ∃ h, offs h a.strs = a.strings.1) →
    stitch (offs 0 D) (arrays.map (fun a => a.strings.1)) = offs 0 (D ++ arrays.flatMap Arr.strs)
  | [], D, _ => by simp [stitch]
  | a :: as, D, h => by
    obtain ⟨x, hx⟩ := h a (by simp)
    rw [List.map_cons, stitch, List.flatMap_cons]
    have e : offs 0 D ++ (a.strings.1.drop 1).map (fun x => x + (offs 0 D).getLastD 0 - a.strings.1.headD 0) =
        offs 0 (D ++ a.strs) := by
      rw [offs_append, offs_last, ← hx]
      congr 1
      have h0 : (offs x a.strs).headD 0 = x := by rw [offs_cons]; rfl
      rw [h0, ← offs_shift a.strs x (0 + D.flatten.length), List.drop_one, List.map_tail]
    rw [e, stitch_ok as (D ++ a.strs) (fun b hb => h b (by simp [hb])), List.append_assoc]

theorem binaryBlock_ok {wide : Bool} {arrays : List Arr} (h : ∀ a ∈ arrays, a.HasTy (.bin wide)) :
    binaryBlock wide arrays = .var wide (offs 0 (arrays.flatMap Arr.strs)) (arrays.flatMap Arr.strs).flatten := by
  unfold binaryBlock
  congr 1
  · have := stitch_ok arrays [] (fun a ha => ⟨_, (arr_strs (h a ha)).2.2.1⟩)
    simpa [offs] using this
  · induction arrays with
    | nil => rfl
    | cons a as ih =>
      rw [List.flatMap_cons, List.flatMap_cons, List.flatten_append, ih (fun b hb => h b (by simp [hb])),
        (arr_strs (h a (by simp))).2.2.2]

/-- The blocks of string arrays: strings `S` with flags `F`. -/
def BinBlock (wide : Bool) (S : List (List Nat)) (F : List Bool) (b : Block) : Prop :=
  (b = .allNull S.length ∧ (∀ s ∈ S, s = []) ∧ F = List.replicate S.length false) ∨
  (b = .var wide (offs 0 S) S.flatten ∧ F = List.replicate S.length true) ∨
  (b = .nullable F (.var wide (offs 0 S) S.flatten))

theorem fromArrays_bin {wide : Bool} {arrays : List Arr} (h : ∀ a ∈ arrays, a.HasTy (.bin wide)) :
    ∃ b S F, fromArrays (.bin wide) arrays = some b ∧ BinBlock wide S F b ∧ S.length = (arrays.map Arr.len).sum ∧
      F.length = S.length ∧ S.flatten.length ≤ (arrays.flatMap Arr.strs).flatten.length ∧
      arrays.flatMap (fun a => a.vals (.bin wide)) = mask F (S.map .bytes) := by
  have hr := fun a ha => (arr_strs (h a ha)).1
  obtain ⟨h1, h2, h3⟩ := raw_flags hr
  rw [← map_flatMap'] at h2 h3
  have hc := extract_cases hr
  simp only [← map_flatMap'] at hc
  unfold fromArrays withNulls
  simp only
  have hnull : ∀ n, arrays.flatMap (fun a => a.vals (.bin wide)) = List.replicate n .null → n = (arrays.map Arr.len).sum →
      ∃ b S F, (some (Block.allNull n)) = some b ∧ BinBlock wide S F b ∧ S.length = (arrays.map Arr.len).sum ∧
      F.length = S.length ∧ S.flatten.length ≤ (arrays.flatMap Arr.strs).flatten.length ∧
      arrays.flatMap (fun a => a.vals (.bin wide)) = mask F (S.map .bytes) := by
    intro n hn e
    refine ⟨.allNull n, List.replicate n [], List.replicate n false, rfl, Or.inl ⟨by simp, ?_, by simp⟩, by simpa using e, by simp, ?_, ?_⟩
    · intro s hs; exact (List.mem_replicate.1 hs).2
    · have : (List.replicate n ([] : List Nat)).flatten = [] := by simp
      rw [this]; simp
    · rw [hn, mask_false _ _ (by simp)]
  by_cases hn : (arrays.map Arr.len).sum = 0
  · rw [if_pos hn]
    refine hnull 0 ?_ hn.symm
    rw [h3]
    rw [hn] at h1 h2
    rw [List.length_eq_zero_iff.1 h1, List.length_eq_zero_iff.1 h2]
    rfl
  · rw [if_neg hn, binaryBlock_ok h]
    have hS : (arrays.flatMap Arr.strs).length = (arrays.map Arr.len).sum := by simpa using h2
    cases he : extractNulls arrays (arrays.map Arr.len).sum with
    | none =>
      rw [he] at hc
      refine ⟨_, _, List.replicate (arrays.flatMap Arr.strs).length true, rfl, Or.inr (Or.inl ⟨rfl, rfl⟩), hS, by simp, Nat.le_refl _, ?_⟩
      rw [hc.1, mask_true _ _ (by simp)]
    | all =>
      rw [he] at hc
      exact hnull _ hc rfl
    | some f =>
      rw [he] at hc
      refine ⟨_, _, f, rfl, Or.inr (Or.inr rfl), hS, by rw [hc.2.1, hS], Nat.le_refl _, hc.2.2.2⟩

/-! ### the indices -/

/-- An end of a string with its flag. -/
def encI (adj : Nat) (i : Nat) (v : Bool) : Nat := if v then i else i + adj

theorem normalize_encI {adj i : Nat} (h : i < adj) (v : Bool) : normalize adj (encI adj i v) = (v, i) := by
  cases v
  · simp [encI, normalize]
  · simp only [encI, normalize, if_true]; rw [if_neg (by omega)]

/-- The ends of strings, from `p` on. -/
def inds (adj p : Nat) (T : List (List Nat)) (G : List Bool) : List Nat := List.zipWith (encI adj) (offs p T).tail G

theorem inds_cons (adj p : Nat) (s : List Nat) (T : List (List Nat)) (g : Bool) (G : List Bool) :
    inds adj p (s :: T) (g :: G) = encI adj (p + s.length) g :: inds adj (p + s.length) T G := by
  unfold inds
  rw [offs, List.tail_cons, offs_cons]
  rfl

theorem length_inds (adj p : Nat) (T : List (List Nat)) (G : List Bool) (h : G.length = T.length) : (inds adj p T G).length = T.length := by
  simp [inds, length_offs, h]

theorem inds_append (adj p : Nat) (S T : List (List Nat)) (F G : List Bool) (h : F.length = S.length) :
    inds adj p (S ++ T) (F ++ G) = inds adj p S F ++ inds adj (p + S.flatten.length) T G := by
  unfold inds
  rw [offs_tail_append, List.zipWith_append (by simp [length_offs, h])]

theorem extendLoop_ok (adj : Nat) : ∀ (T : List (List Nat)) (G : List Bool) (p last : Nat), G.length = T.length →
    p + T.flatten.length < adj → extendLoop adj p last (inds adj p T G) = some ((offs last T).tail, G)
  | [], [], p, last, _, _ => rfl
  | [], _ :: _, _, _, h, _ => by cases h
  | _ :: _, [], _, _, h, _ => by cases h
  | s :: T, g :: G, p, last, h, ha => by
    simp only [List.flatten_cons, List.length_append] at ha
    rw [inds_cons, extendLoop, normalize_encI (by omega)]
    simp only
    rw [if_neg (by omega), show p + s.length - p + last = last + s.length by omega,
      extendLoop_ok adj T G _ _ (by simpa using h) (by omega), offs, List.tail_cons, offs_cons (last + s.length) T]
    rfl

theorem extend_start (adj : Nat) (indices xs : List Nat) (h0 : indices.getLastD 0 = 0) (hx : xs ≠ []) :
    extend adj indices xs true = extendLoop adj 0 0 xs := by
  cases xs with
  | nil => exact absurd rfl hx
  | cons x xs =>
    simp only [extend, extendLoop, h0, if_true, Nat.zero_add, Nat.not_lt_zero, if_false, Nat.sub_zero, Nat.add_zero]

theorem inds_last (adj : Nat) : ∀ (T : List (List Nat)) (G : List Bool) (p : Nat), G.length = T.length → T ≠ [] →
    ∃ g, (inds adj p T G).getLast? = some (encI adj (p + T.flatten.length) g)
  | [], _, _, _, h => absurd rfl h
  | s :: T, [], _, h, _ => by cases h
  | [s], [g], p, _, _ => ⟨g, by simp [inds, offs]⟩
  | [s], _ :: _ :: _, _, h, _ => by cases h
  | s :: u :: T, [_], _, h, _ => by cases h
  | s :: u :: T, g :: g' :: G, p, h, _ => by
    obtain ⟨x, hx⟩ := inds_last adj (u :: T) (g' :: G) (p + s.length) (by simpa using h) (by simp)
    refine ⟨x, ?_⟩
    rw [inds_cons, List.getLast?_cons, hx, Option.getD_some, List.flatten_cons (l := s), List.length_append, Nat.add_assoc]

/-- The ranges of the indices (binary.rs:160-172). -/
def irs (ranges : List Rng) : List Rng := ranges.map (fun r => if r.1 = 0 then (0, r.2) else (r.1 - 1, r.2))

/-- The ranges of the bytes. -/
def byteRanges (S : List (List Nat)) : List Rng → List Rng
  | [] => []
  | r :: rs =>
    let a := (S.take r.1).flatten.length
    let b := (S.take r.2).flatten.length
    if a ≠ b then (a, b) :: byteRanges S rs else byteRanges S rs

theorem take_split {α : Type} (xs : List α) (r : Rng) (h1 : r.1 ≤ r.2) : xs.take r.2 = xs.take r.1 ++ slice xs r := by
  have : xs.take r.2 = slice xs (0, r.2) := by simp [slice]
  rw [this, slice_split xs 0 r.1 r.2 (by omega) h1]
  congr 1

theorem list_split {α : Type} (xs : List α) (r : Rng) (h1 : r.1 ≤ r.2) : xs = xs.take r.1 ++ slice xs r ++ xs.drop r.2 := by
  rw [← take_split xs r h1, List.take_append_drop]

theorem flatten_take_le (S : List (List Nat)) (k : Nat) : (S.take k).flatten.length ≤ S.flatten.length := by
  have e : S.flatten.length = (S.take k).flatten.length + (S.drop k).flatten.length := by
    rw [← List.length_append, ← List.flatten_append, List.take_append_drop]
  omega

/-- The part of the indices that belongs to a range. -/
theorem inds_slice (adj : Nat) (S : List (List Nat)) (F : List Bool) (hF : F.length = S.length) (r : Rng) (h1 : r.1 < r.2)
    (h2 : r.2 ≤ S.length) : slice (inds adj 0 S F) r = inds adj (S.take r.1).flatten.length (slice S r) (slice F r) := by
  have e : inds adj 0 S F = inds adj 0 (S.take r.1) (F.take r.1) ++ (inds adj (S.take r.1).flatten.length (slice S r) (slice F r) ++
      inds adj (S.take r.2).flatten.length (S.drop r.2) (F.drop r.2)) := by
    conv => lhs; rw [list_split S r (by omega), list_split F r (by omega)]
    rw [inds_append _ _ _ _ _ _ (by rw [← take_split S r (by omega), ← take_split F r (by omega)]; simp [hF]),
      inds_append _ _ _ _ _ _ (by simp [hF]), ← take_split S r (by omega), List.append_assoc]
    simp only [Nat.zero_add]
  have l1 : (inds adj 0 (S.take r.1) (F.take r.1)).length = r.1 := by
    rw [length_inds _ _ _ _ (by simp [hF])]; simp; omega
  have l2 : (inds adj (S.take r.1).flatten.length (slice S r) (slice F r)).length = r.2 - r.1 := by
    rw [length_inds _ _ _ _ (by rw [length_slice _ _ (hF ▸ h2), length_slice _ _ h2]), length_slice _ _ h2]
  rw [e, slice_append_right _ _ _ (by rw [l1]; exact Nat.le_refl _), l1, slice_append_left _ _ _ (by simp only; omega)]
  have : (r.1 - r.1, r.2 - r.1) = (0, (inds adj (S.take r.1).flatten.length (slice S r) (slice F r)).length) := by
    rw [l2, Nat.sub_self]
  rw [this, slice_all]

theorem irs_cons (r : Rng) (rs : List Rng) : irs (r :: rs) = (if r.1 = 0 then (0, r.2) else (r.1 - 1, r.2)) :: irs rs := rfl

theorem getLastD_append_tail (indices : List Nat) (hi : indices ≠ []) (T : List (List Nat)) :
    (indices ++ (offs (indices.getLastD 0) T).tail).getLastD 0 = (offs (indices.getLastD 0) T).getLastD 0 := by
  cases hT : (offs (indices.getLastD 0) T).tail with
  | nil =>
    rw [List.append_nil, offs_cons, hT]; simp
  | cons x xs =>
    rw [offs_cons, hT]
    simp [List.getLastD_eq_getLast?, List.getLast?_append, List.getLast?_cons]

theorem loop_ok (adj : Nat) (S : List (List Nat)) (F : List Bool) (hF : F.length = S.length) (hadj : S.flatten.length < adj) :
    ∀ (ranges : List Rng) (pre indices : List Nat) (validity : List Bool) (bytes : List Rng), InB S.length ranges →
      (∀ r ∈ ranges.tail, r.1 ≠ 0) → (∀ r rs, ranges = r :: rs → r.1 = 0 → pre = [] ∧ indices.getLastD 0 = 0) → indices ≠ [] →
      binaryLoop adj (pre ++ wanted (inds adj 0 S F) (irs ranges)) ranges pre.length indices validity bytes =
        some (indices ++ (offs (indices.getLastD 0) (wanted S ranges)).tail, validity ++ wanted F ranges,
          bytes ++ byteRanges S ranges)
  | [], pre, indices, validity, bytes, _, _, _, _ => by
    simp [binaryLoop, wanted, offs, byteRanges]
  | r :: rs, pre, indices, validity, bytes, hr, ht, h0, hi => by
    have ⟨h1, h2⟩ := inB_cons hr
    have hlS : (slice S r).length = r.2 - r.1 := length_slice _ _ h1.2
    have hlF : (slice F r).length = r.2 - r.1 := length_slice _ _ (hF ▸ h1.2)
    have hne : slice S r ≠ [] := by
      intro hc
      rw [hc] at hlS
      simp only [List.length_nil] at hlS
      omega
    have htk : (S.take r.2).flatten.length = (S.take r.1).flatten.length + (slice S r).flatten.length := by
      rw [take_split S r (by omega), List.flatten_append, List.length_append]
    have hle := flatten_take_le S r.2
    have hlen : (inds adj 0 S F).length = S.length := length_inds _ _ _ _ hF
    have hext := extendLoop_ok adj (slice S r) (slice F r) (S.take r.1).flatten.length (indices.getLastD 0)
      (by rw [hlS, hlF]) (by omega)
    obtain ⟨g, hg⟩ := inds_last adj (slice S r) (slice F r) (S.take r.1).flatten.length (by rw [hlS, hlF]) hne
    rw [← inds_slice adj S F hF r h1.1 h1.2] at hext hg
    have hrest : ∀ pre', binaryLoop adj (pre' ++ wanted (inds adj 0 S F) (irs rs)) rs pre'.length
        (indices ++ (offs (indices.getLastD 0) (slice S r)).tail) (validity ++ slice F r)
        (if (S.take r.1).flatten.length ≠ (S.take r.2).flatten.length then
          bytes ++ [((S.take r.1).flatten.length, (S.take r.2).flatten.length)] else bytes) =
        some (indices ++ (offs (indices.getLastD 0) (wanted S (r :: rs))).tail, validity ++ wanted F (r :: rs),
          bytes ++ byteRanges S (r :: rs)) := by
      intro pre'
      rw [loop_ok adj S F hF hadj rs pre' _ _ _ h2 (fun q hq => ht q (by
          cases rs with
          | nil => cases hq
          | cons x xs => simp only [List.tail_cons] at hq ⊢; exact List.mem_cons_of_mem _ hq))
        (fun q qs hq hq0 => absurd hq0 (ht q (by rw [hq]; simp))) (by simp [hi])]
      rw [getLastD_append_tail indices hi, offs_last, wanted_cons, wanted_cons, offs_tail_append]
      simp only [List.append_assoc, byteRanges]
      congr 3
      split <;> simp
    rw [binaryLoop, irs_cons, wanted_cons]
    by_cases hr0 : r.1 = 0
    · obtain ⟨hp, hl0⟩ := h0 r rs rfl hr0
      subst hp
      have er : (0, r.2) = r := by rw [← hr0]
      simp only [hr0, if_true, List.nil_append, Nat.sub_zero, decide_true]
      rw [er]
      have hl : (slice (inds adj 0 S F) r).length = r.2 := by rw [length_slice _ _ (by rw [hlen]; exact h1.2), hr0, Nat.sub_zero]
      rw [if_pos (by rw [List.length_append, hl]; omega)]
      have es : slice (slice (inds adj 0 S F) r ++ wanted (inds adj 0 S F) (irs rs)) (0, r.2) = slice (inds adj 0 S F) r := by
        rw [slice_append_left _ _ _ (by simp only; omega), ← hl, slice_all]
      have er' : slice (slice (inds adj 0 S F) r ++ wanted (inds adj 0 S F) (irs rs)) r = slice (inds adj 0 S F) r := by
        rw [← er] at es ⊢; exact es
      have hz : (S.take r.1).flatten.length = 0 := by rw [hr0]; simp
      have hxe : slice (inds adj 0 S F) r ≠ [] := by
        intro hc; rw [hc] at hg; cases hg
      have := hrest (slice (inds adj 0 S F) r)
      rw [hl] at this
      rw [er', hg, extend_start adj indices _ hl0 hxe]
      rw [hz, hl0] at hext
      rw [hext]
      simp only
      rw [normalize_encI (by omega)]
      simp only
      rw [hz, hl0] at this
      rw [htk, hz, Nat.zero_add] at this
      rw [hz, Nat.zero_add, hl0]
      exact this
    · simp only [hr0, if_false, decide_false]
      have hpre : slice (inds adj 0 S F) (r.1 - 1, r.2) = slice (inds adj 0 S F) (r.1 - 1, r.1) ++ slice (inds adj 0 S F) r :=
        slice_split _ _ r.1 _ (by omega) (by omega)
      have hone := inds_slice adj S F hF (r.1 - 1, r.1) (by simp only; omega) (by simp only; omega)
      have hl : (slice (inds adj 0 S F) (r.1 - 1, r.2)).length = r.2 - r.1 + 1 := by
        rw [length_slice _ _ (by rw [hlen]; exact h1.2)]; simp only; omega
      have hl1 : (slice (inds adj 0 S F) (r.1 - 1, r.1)).length = 1 := by
        rw [length_slice _ _ (by rw [hlen]; simp only; omega)]; simp only; omega
      obtain ⟨g', hg'⟩ := inds_last adj (slice S (r.1 - 1, r.1)) (slice F (r.1 - 1, r.1)) (S.take (r.1 - 1)).flatten.length
        (by rw [length_slice _ _ (by simp only; omega), length_slice _ _ (by simp only; omega)])
        (by
          intro hc
          have := length_slice S (r.1 - 1, r.1) (by simp only; omega)
          rw [hc] at this
          simp only [List.length_nil] at this
          omega)
      simp only at hone
      rw [← hone] at hg'
      have htk1 : (S.take (r.1 - 1)).flatten.length + (slice S (r.1 - 1, r.1)).flatten.length = (S.take r.1).flatten.length := by
        have := take_split S (r.1 - 1, r.1) (by simp only; omega)
        simp only at this
        rw [this, List.flatten_append, List.length_append]
      rw [htk1] at hg'
      have hx : slice (inds adj 0 S F) (r.1 - 1, r.1) = [encI adj (S.take r.1).flatten.length g'] := by
        generalize slice (inds adj 0 S F) (r.1 - 1, r.1) = l at hl1 hg'
        match l, hl1, hg' with
        | [x], _, hg' => simpa using hg'
      rw [if_pos (by simp only [List.length_append, hl]; omega)]
      have es : slice (pre ++ (slice (inds adj 0 S F) (r.1 - 1, r.2) ++ wanted (inds adj 0 S F) (irs rs)))
          (pre.length, pre.length + (r.2 - r.1) + 1) = slice (inds adj 0 S F) (r.1 - 1, r.2) := by
        rw [slice_append_right _ _ _ (Nat.le_refl _)]
        simp only [Nat.sub_self]
        rw [show pre.length + (r.2 - r.1) + 1 - pre.length = (slice (inds adj 0 S F) (r.1 - 1, r.2)).length by omega,
          slice_append_left _ _ _ (by simp), slice_all]
      rw [es, hpre, hx, List.singleton_append, List.getLast?_cons, hg]
      simp only [Option.getD_some, extend, Bool.false_eq_true, if_false]
      rw [normalize_encI (by omega), hext]
      have n1 := normalize_encI (adj := adj) (i := (S.take r.1).flatten.length) (by omega) g'
      have n2 := normalize_encI (adj := adj) (i := (S.take r.1).flatten.length + (slice S r).flatten.length) (by omega) g
      simp only [List.headD_cons, n1, n2]
      have := hrest (pre ++ (encI adj (S.take r.1).flatten.length g' :: slice (inds adj 0 S F) r))
      have hll : (pre ++ (encI adj (S.take r.1).flatten.length g' :: slice (inds adj 0 S F) r)).length =
          pre.length + (r.2 - r.1) + 1 := by
        rw [List.length_append, List.length_cons, length_slice _ _ (by rw [hlen]; exact h1.2)]; omega
      rw [hll, List.append_assoc, htk] at this
      exact this

end Verif.Phys
