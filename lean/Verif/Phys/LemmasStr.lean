import Verif.Phys.LemmasBin
/-! Reading of string columns. -/
namespace Verif.Phys
open Verif.ListCol
open Verif.RowIds.Serde (leBytes fromLe leBytes_length fromLe_leBytes)

theorem chunk_leBytes (w : Nat) : ∀ (is : List Nat), chunk w is.length (is.flatMap (leBytes w)) = is.map (leBytes w)
  | [] => rfl
  | i :: is => by
    rw [List.length_cons, Nat.add_comm, List.flatMap_cons, chunk_append _ _ _ _ _ (by rw [leBytes_length]; omega), chunk_leBytes w is,
      List.map_cons]
    have : chunk w 1 (leBytes w i) = [leBytes w i] := by
      simp only [chunk, List.range_one, List.map_cons, List.map_nil, Nat.zero_mul, Nat.zero_add]
      have := slice_all (leBytes w i)
      rw [leBytes_length] at this
      rw [this]
    rw [this]
    rfl

theorem length_leFlat (w : Nat) (is : List Nat) : (is.flatMap (leBytes w)).length = is.length * w := by
  induction is with
  | nil => simp
  | cons i is ih => rw [List.flatMap_cons, List.length_append, ih, leBytes_length, List.length_cons, Nat.add_mul]; omega

theorem fromLe_leFlat (w : Nat) (is : List Nat) (h : ∀ i ∈ is, i < 256 ^ w) :
    (chunk w is.length (is.flatMap (leBytes w))).map fromLe = is := by
  rw [chunk_leBytes, List.map_map]
  conv => rhs; rw [← List.map_id is]
  apply List.map_congr_left
  intro i hi
  exact fromLe_leBytes w i (h i hi)

theorem slice_all' {α : Type} (xs : List α) (n : Nat) (h : xs.length = n) : slice xs (0, n) = xs := by
  subst h; exact slice_all xs

theorem flatten_slice (S : List (List Nat)) (r : Rng) (h : r.1 ≤ r.2) :
    slice S.flatten ((S.take r.1).flatten.length, (S.take r.1).flatten.length + (slice S r).flatten.length) = (slice S r).flatten := by
  have e : S.flatten = (S.take r.1).flatten ++ ((slice S r).flatten ++ (S.drop r.2).flatten) := by
    rw [← List.flatten_append, ← List.flatten_append, ← List.append_assoc, ← list_split S r h]
  rw [e, slice_append_right _ _ _ (Nat.le_refl _)]
  simp only [Nat.sub_self, Nat.add_sub_cancel_left]
  rw [slice_append_left _ _ _ (Nat.le_refl _), slice_all]

theorem inB_irs {n : Nat} {ranges : List Rng} (h : InB n ranges) : InB n (irs ranges) := by
  intro r hr
  obtain ⟨q, hq, e⟩ := List.mem_map.1 hr
  have ⟨h1, h2⟩ := h q hq
  by_cases h0 : q.1 = 0
  · rw [if_pos h0] at e; subst e; exact ⟨by simp only; omega, h2⟩
  · rw [if_neg h0] at e; subst e; exact ⟨by simp only; omega, h2⟩

theorem byteRanges_ok (S : List (List Nat)) : ∀ (ranges : List Rng), InB S.length ranges →
    InB S.flatten.length (byteRanges S ranges) ∧ wanted S.flatten (byteRanges S ranges) = (wanted S ranges).flatten
  | [], _ => ⟨(fun _ h => nomatch h), rfl⟩
  | r :: rs, h => by
    have ⟨h1, h2⟩ := inB_cons h
    obtain ⟨i1, i2⟩ := byteRanges_ok S rs h2
    have htk : (S.take r.2).flatten.length = (S.take r.1).flatten.length + (slice S r).flatten.length := by
      rw [take_split S r (by omega), List.flatten_append, List.length_append]
    have hle := flatten_take_le S r.2
    have hsl : slice S.flatten ((S.take r.1).flatten.length, (S.take r.2).flatten.length) = (slice S r).flatten := by
      rw [htk]; exact flatten_slice S r (by omega)
    rw [wanted_cons, List.flatten_append]
    unfold byteRanges
    simp only
    split
    · rename_i hne
      refine ⟨?_, by rw [wanted_cons, hsl, i2]⟩
      intro q hq
      rcases List.mem_cons.1 hq with e | hq
      · subst e; exact ⟨by simp only; omega, hle⟩
      · exact i1 q hq
    · rename_i hne
      refine ⟨i1, ?_⟩
      have : (slice S r).flatten = [] := by
        apply List.length_eq_zero_iff.1
        have : (S.take r.1).flatten.length = (S.take r.2).flatten.length := by simpa using hne
        omega
      rw [this, i2]; rfl

theorem rows_irs (ranges : List Rng) : ((irs ranges).map (fun r => r.2 - r.1)).sum = rows (irs ranges) := rfl

theorem scale_one (rs : List Rng) : scale 1 rs = rs := by
  simp [scale]

/-- The decoder of strings. -/
theorem decode_strs (c : Codec) (W : List (List Nat)) (G : List Bool) (hG : G.length = W.length) (wide : Bool) (bytes : Dec)
    (hb : ∀ skip num, skip + num ≤ W.flatten.length → ∃ n, decode c bytes skip num = some (.fixed 1 (slice W.flatten (skip, skip + num)) n))
    (skip num : Nat) (hn : skip + num ≤ W.length) :
    ∃ b, decode c (.binary (offs 0 W) G wide bytes) skip num = some b ∧
      toArrow b (.bin wide) = some (slice (mask G (W.map .bytes)) (skip, skip + num)) := by
  have hsplit := list_split W (skip, skip + num) (by simp only; omega)
  simp only at hsplit
  have htk := take_split W (skip, skip + num) (by simp only; omega)
  simp only at htk
  have htl : (W.take (skip + num)).flatten.length = (W.take skip).flatten.length + (slice W (skip, skip + num)).flatten.length := by
    rw [htk, List.flatten_append, List.length_append]
  have hlT : (slice W (skip, skip + num)).length = num := by rw [length_slice _ _ hn]; simp only; omega
  -- the offsets
  have ho : offs 0 W = (offs 0 (W.take skip)) ++ ((offs (W.take skip).flatten.length (slice W (skip, skip + num))).tail ++
      (offs (W.take (skip + num)).flatten.length (W.drop (skip + num))).tail) := by
    conv => lhs; rw [hsplit]
    rw [List.append_assoc, offs_append, offs_tail_append, Nat.zero_add, htl]
  have hlA : (offs 0 (W.take skip)).length = skip + 1 := by rw [length_offs, List.length_take]; omega
  have hget1 : (offs 0 W).getD skip 0 = (W.take skip).flatten.length := by
    have h1 := offs_last (W.take skip) 0
    rw [ho, List.getD_eq_getElem?_getD, List.getElem?_append_left (by omega), ← Nat.zero_add (W.take skip).flatten.length, ← h1,
      List.getLastD_eq_getLast?, List.getLast?_eq_getElem?, hlA]
    simp
  have hslice : slice (offs 0 W) (skip, skip + num + 1) = offs (W.take skip).flatten.length (slice W (skip, skip + num)) := by
    rw [ho]
    rw [slice_append _ _ _ _ (by omega), hlA, show skip + num + 1 - (skip + 1) = num by omega]
    have hlt : (offs (W.take skip).flatten.length (slice W (skip, skip + num))).tail.length = num := by
      rw [List.length_tail, length_offs, hlT]; omega
    rw [slice_append_left _ _ _ (by simp only; omega)]
    rw [slice_all' _ _ hlt]
    have e : slice (offs 0 (W.take skip)) (skip, skip + num + 1) = [(W.take skip).flatten.length] := by
      have hd : (offs 0 (W.take skip)).drop skip = [(W.take skip).flatten.length] := by
        have h1 := offs_last (W.take skip) 0
        rw [List.getLastD_eq_getLast?, List.getLast?_eq_getElem?, hlA, Nat.zero_add, Nat.add_sub_cancel] at h1
        rw [List.getElem?_eq_getElem (by omega)] at h1
        simp only [Option.getD_some] at h1
        rw [List.drop_eq_getElem_cons (by omega), h1, List.drop_of_length_le (by omega)]
      simp only [slice, hd, show skip + num + 1 - skip = num + 1 by omega, List.take_succ_cons, List.take_nil]
    rw [e, List.singleton_append, ← offs_cons]
  have hget2 : (offs 0 W).getD (skip + num) 0 = (W.take (skip + num)).flatten.length := by
    have hlA' : (offs 0 (W.take (skip + num))).length = skip + num + 1 := by rw [length_offs, List.length_take]; omega
    have h1 := offs_last (W.take (skip + num)) 0
    have hW : offs 0 W = offs 0 (W.take (skip + num)) ++ (offs (0 + (W.take (skip + num)).flatten.length) (W.drop (skip + num))).tail := by
      conv => lhs; rw [← List.take_append_drop (skip + num) W]
      rw [offs_append]
    rw [hW, List.getD_eq_getElem?_getD, List.getElem?_append_left (by omega), ← Nat.zero_add (W.take (skip + num)).flatten.length, ← h1,
      List.getLastD_eq_getLast?, List.getLast?_eq_getElem?, hlA']
    simp
  have hle := flatten_take_le W (skip + num)
  obtain ⟨n, hbn⟩ := hb (W.take skip).flatten.length (slice W (skip, skip + num)).flatten.length (by omega)
  have hdata : slice W.flatten ((W.take skip).flatten.length, (W.take skip).flatten.length + (slice W (skip, skip + num)).flatten.length) =
      (slice W (skip, skip + num)).flatten := by
    exact flatten_slice W (skip, skip + num) (by simp only; omega)
  rw [hdata] at hbn
  have hstr : strs (offs 0 (slice W (skip, skip + num))) (slice W (skip, skip + num)).flatten = (slice W (skip, skip + num)).map .bytes := by
    have := strs_offs (slice W (skip, skip + num)) [] []
    simpa using this
  have hm : slice (mask G (W.map .bytes)) (skip, skip + num) =
      mask (slice G (skip, skip + num)) ((slice W (skip, skip + num)).map .bytes) := by
    unfold mask; rw [slice_zipWith, slice_map]
  simp only [decode]
  rw [if_pos ⟨by omega, by rw [length_offs]; omega⟩, hget1, hget2, hslice, htl, Nat.add_sub_cancel_left, hbn]
  simp only
  rw [offs_map_sub _ _ _ (Nat.le_refl _), Nat.sub_self]
  by_cases ha : (slice G (skip, skip + num)).all id = true
  · rw [if_pos ha]
    refine ⟨_, rfl, ?_⟩
    simp only [toArrow, if_true, hstr, Option.some.injEq]
    rw [hm]
    have : slice G (skip, skip + num) = List.replicate num true := by
      rw [List.eq_replicate_iff]
      exact ⟨by rw [length_slice _ _ (by simp only; omega)]; simp only; omega, fun b hb => List.all_eq_true.1 ha b hb⟩
    rw [this, mask_true _ _ (by simp [hlT])]
  · rw [if_neg ha]
    refine ⟨_, rfl, ?_⟩
    simp only [toArrow, if_true, hstr, Option.map_some, Option.some.injEq]
    rw [hm]

/-- A scheduler gives the values `vs` when no range but the first begins with row 0. All batches. -/
def ReadsPos (c : Codec) (file : List Nat) (s : Sched) (t : Ty) (vs : List Val) : Prop :=
  ∀ ranges, InB vs.length ranges → (∀ r ∈ ranges.tail, r.1 ≠ 0) → ∃ d, schedule c file s ranges = some d ∧
    ∀ skip num, skip + num ≤ rows ranges →
      ∃ b, decode c d skip num = some b ∧ toArrow b t = some (slice (wanted vs ranges) (skip, skip + num))

theorem binary_reads (c : Codec) (hc : c.Ok) (file : List Nat) (S : List (List Nat)) (F : List Bool) (hF : F.length = S.length)
    (hsz : S.flatten.length < 2 ^ 63) (wide comp : Bool) (p1 p2 size2 : Nat)
    (hp1 : slice file (p1, p1 + S.length * 8) = (inds (S.flatten.length + 1) 0 S F).flatMap (leBytes 8))
    (hs2 : size2 = (if comp then c.comp S.flatten else S.flatten).length)
    (hp2 : slice file (p2, p2 + size2) = if comp then c.comp S.flatten else S.flatten) :
    ReadsPos c file (.binary (.basicNone (.value 8 p1 (S.length * 8) false)) (.value 1 p2 size2 comp) wide (S.flatten.length + 1))
      (.bin wide) (mask F (S.map .bytes)) := by
  intro ranges hr ht
  have hml : (mask F (S.map .bytes)).length = S.length := by simp [mask, hF]
  rw [hml] at hr
  have hI : (inds (S.flatten.length + 1) 0 S F).length = S.length := length_inds _ _ _ _ hF
  have hlen8 : ((inds (S.flatten.length + 1) 0 S F).flatMap (leBytes 8)).length = S.length * 8 := by rw [length_leFlat, hI]
  obtain ⟨di, hd1, hd2⟩ := value_ok c hc file 8 S.length ((inds (S.flatten.length + 1) 0 S F).flatMap (leBytes 8)) hlen8 p1 (S.length * 8) false
    hlen8.symm (by simpa using hp1) (irs ranges) (inB_irs hr)
  have hdec := hd2 0 (rows (irs ranges)) (by omega)
  have hbound : ∀ i ∈ inds (S.flatten.length + 1) 0 S F, i < 256 ^ 8 := by
    have key : ∀ (T : List (List Nat)) (G : List Bool) (p : Nat), ∀ i ∈ inds (S.flatten.length + 1) p T G,
        i ≤ p + T.flatten.length + (S.flatten.length + 1) := by
      intro T
      induction T with
      | nil => intro G p i hi; simp [inds, offs] at hi
      | cons s T ih =>
        intro G p i hi
        cases G with
        | nil => simp [inds] at hi
        | cons g G =>
          rw [inds_cons] at hi
          simp only [List.flatten_cons, List.length_append]
          rcases List.mem_cons.1 hi with e | hi
          · subst e
            unfold encI
            split <;> omega
          · have := ih G _ i hi
            omega
    intro i hi
    have := key S F 0 i hi
    omega
  have hu : u64s (.fixed 8 (slice (wanted ((inds (S.flatten.length + 1) 0 S F).flatMap (leBytes 8)) (scale 8 (irs ranges)))
      (0 * 8, (0 + rows (irs ranges)) * 8)) (rows (irs ranges))) = some (wanted (inds (S.flatten.length + 1) 0 S F) (irs ranges)) := by
    simp only [u64s]
    rw [if_neg (by rw [value_len 8 S.length _ hlen8 (irs ranges) (inB_irs hr) 0 _ (by omega)]; omega),
      value_vals 8 S.length _ hlen8 (irs ranges) (inB_irs hr) 0 _ (by omega), ← slice_map, ← wanted_map]
    have e := fromLe_leFlat 8 _ hbound
    rw [hI] at e
    rw [e]
    have hl : (wanted (inds (S.flatten.length + 1) 0 S F) (irs ranges)).length = rows (irs ranges) :=
      length_wanted _ _ (by rw [hI]; exact inB_irs hr)
    rw [Nat.zero_add, ← hl, slice_all]
  obtain ⟨hbr, hbw⟩ := byteRanges_ok S ranges hr
  have hloop := loop_ok (S.flatten.length + 1) S F hF (by omega) ranges [] [0] [] [] hr ht (fun _ _ _ _ => ⟨rfl, rfl⟩) (by simp)
  simp only [List.nil_append, List.length_nil, List.getLastD_cons, List.getLastD_nil, List.singleton_append] at hloop
  rw [← offs_cons] at hloop
  obtain ⟨db, hb1, hb2⟩ := value_ok c hc file 1 S.flatten.length S.flatten (by omega) p2 size2 comp hs2 hp2 (byteRanges S ranges) hbr
  have e1 : irs ranges = ranges.map (fun r => if r.1 = 0 then (0, r.2) else (r.1 - 1, r.2)) := rfl
  refine ⟨.binary (offs 0 (wanted S ranges)) (wanted F ranges) wide db, ?_, ?_⟩
  · rw [schedule]
    simp only [← e1]
    rw [schedule, hd1]
    simp only [Option.map_some, decode]
    rw [rows_irs, hdec, Option.bind_some, hu]
    simp only
    rw [hloop]
    simp only [hb1, Option.map_some]
  · intro skip num hn
    have hlW : (wanted S ranges).length = rows ranges := length_wanted S ranges hr
    have hlF : (wanted F ranges).length = rows ranges := length_wanted F ranges (hF ▸ hr)
    have hrw : rows (byteRanges S ranges) = (wanted S ranges).flatten.length := by
      rw [← hbw, length_wanted _ _ hbr]
    have := decode_strs c (wanted S ranges) (wanted F ranges) (by rw [hlW, hlF]) wide db (fun sk nm hle => by
      refine ⟨nm, ?_⟩
      rw [hb2 sk nm (by rw [hrw]; exact hle), scale_one, hbw, Nat.mul_one, Nat.mul_one]) skip num (by rw [hlW]; exact hn)
    obtain ⟨b, hb, hv⟩ := this
    refine ⟨b, hb, ?_⟩
    rw [hv]
    unfold mask
    rw [wanted_zipWith _ F (S.map Val.bytes) (by simp [hF]) ranges (hF ▸ hr), wanted_map]

/-! ### the encoder -/

theorem lengthsSum_offs (S : List (List Nat)) : ∀ a last, lengthsSum last (offs a S) = (offs last S).tail := by
  induction S with
  | nil => intro a last; simp [offs, lengthsSum]
  | cons s ss ih =>
    intro a last
    rw [offs, offs_cons, lengthsSum, ← offs_cons, ih, offs, List.tail_cons, offs_cons (last + s.length) ss]
    rw [show last + (a + s.length - a) = last + s.length by omega]

theorem inds_true (adj : Nat) (S : List (List Nat)) : inds adj 0 S (List.replicate S.length true) = (offs 0 S).tail := by
  unfold inds
  have : ∀ (l : List Nat), List.zipWith (encI adj) l (List.replicate l.length true) = l := by
    intro l
    induction l with
    | nil => rfl
    | cons x xs ih => rw [List.length_cons, List.replicate_succ, List.zipWith_cons_cons, ih]; simp [encI]
  have h := this (offs 0 S).tail
  rw [List.length_tail, length_offs, Nat.add_sub_cancel] at h
  exact h

theorem getIndices_ok (S : List (List Nat)) (F : List Bool) (hF : F.length = S.length) (hne : S ≠ []) :
    getIndices (offs 0 S) (some F) = (inds (S.flatten.length + 1) 0 S F, S.flatten.length + 1) ∧
    getIndices (offs 0 S) none = (inds (S.flatten.length + 1) 0 S (List.replicate S.length true), S.flatten.length + 1) := by
  have hl := lengthsSum_offs S 0 0
  have hemp : (offs 0 S).tail.isEmpty = false := by
    cases S with
    | nil => exact absurd rfl hne
    | cons s ss => rw [offs, List.tail_cons, offs_cons]; rfl
  have hlast : (offs 0 S).tail.getLastD 0 = S.flatten.length := by
    have := offs_last S 0
    rw [offs_cons, List.getLastD_cons] at this
    omega
  constructor
  · simp only [getIndices, hl, hemp, Bool.false_eq_true, if_false, hlast]
    rfl
  · simp only [getIndices, hl, hemp, Bool.false_eq_true, if_false, hlast]
    rw [inds_true]

theorem offs_empties : ∀ (S : List (List Nat)), (∀ s ∈ S, s = []) → ∀ a, offs a S = List.replicate (S.length + 1) a ∧ S.flatten = []
  | [], _, a => ⟨rfl, rfl⟩
  | s :: ss, h, a => by
    have hs := h s (by simp)
    subst hs
    obtain ⟨h1, h2⟩ := offs_empties ss (fun x hx => h x (by simp [hx])) a
    refine ⟨?_, by simpa using h2⟩
    rw [offs, List.length_nil, Nat.add_zero, h1, List.length_cons, List.replicate_succ (n := ss.length + 1)]

/-- The encoder of strings: the buffers and their description. -/
theorem encodeBinary_ok (c : Codec) (compress : Bool) {wide : Bool} {S : List (List Nat)} {F : List Bool} {b : Block}
    (hb : BinBlock wide S F b) (hF : F.length = S.length) (hne : S ≠ []) (k : Nat) :
    encodeBinary c compress b k = some (.var true (inds (S.flatten.length + 1) 0 S F) (if compress then c.comp S.flatten else S.flatten),
      .binary (.noNulls (.flat 64 k false)) (.flat 8 (k + 1) compress) (S.flatten.length + 1), k + 2) := by
  obtain ⟨g1, g2⟩ := getIndices_ok S F hF hne
  unfold encodeBinary
  rcases hb with ⟨e, he, hf⟩ | ⟨e, hf⟩ | e
  · subst e
    obtain ⟨o1, o2⟩ := offs_empties S he 0
    simp only [Option.map_some]
    rw [← o1, ← hf, g1]
    simp only [o2]
  · subst e
    simp only [Option.map_some]
    rw [g2, hf]
  · subst e
    simp only [Option.map_some]
    rw [g1]

theorem binary_page (c : Codec) (hc : c.Ok) (compress : Bool) {S : List (List Nat)} {F : List Bool} (T : Ty) {file : List Nat} {bufs : List Rng} {k : Nat}
    (hF : F.length = S.length) (hsz : S.flatten.length < 2 ^ 63)
    (hp : Placed file (bufs.drop k) [(inds (S.flatten.length + 1) 0 S F).flatMap (leBytes 8), if compress then c.comp S.flatten else S.flatten]) :
    ∃ s, mkSched bufs T (.binary (.noNulls (.flat 64 k false)) (.flat 8 (k + 1) compress) (S.flatten.length + 1)) = some s ∧
      ReadsPos c file s (.bin (wideOf T)) (mask F (S.map .bytes)) := by
  obtain ⟨⟨p1, h1, h2⟩, hp'⟩ := placed_cons hp
  obtain ⟨⟨p2, h3, h4⟩, _⟩ := placed_cons hp'
  have hlen8 : ((inds (S.flatten.length + 1) 0 S F).flatMap (leBytes 8)).length = S.length * 8 := by
    rw [length_leFlat, length_inds _ _ _ _ hF]
  rw [hlen8] at h1 h2
  refine ⟨_, ?_, binary_reads c hc file S F hF hsz _ compress p1 p2 _ h2 rfl h4⟩
  simp only [mkSched, h1, h3]
  rfl

end Verif.Phys
