import Verif.RowIds.SequenceLemmas
import Verif.RowSet.Props

/-! # Helper lemmas for row id sequences: mask, slice, get, re-chunk, conversion to a row set -/
namespace Verif.RowIds
open Seg (WF Small dropAt)

namespace Seq

/-! ## mask -/

/-- The values of `l`, whose first element has position `c`, at positions not in `ps`. -/
def dropFrom (c : Nat) (ps l : List Nat) : List Nat :=
  ((List.range' c l.length).filter (fun i => !ps.contains i)).filterMap (fun i => l[i - c]?)

theorem dropFrom_append (c : Nat) (ps a b : List Nat) :
    dropFrom c ps (a ++ b) = dropFrom c ps a ++ dropFrom (c + a.length) ps b := by
  unfold dropFrom
  rw [List.length_append, ← List.range'_append_1, List.filter_append, List.filterMap_append]
  congr 1
  · apply filterMap_congr'
    intro i hi
    rw [List.mem_filter, List.mem_range'_1] at hi
    rw [List.getElem?_append_left (by omega)]
  · apply filterMap_congr'
    intro i hi
    rw [List.mem_filter, List.mem_range'_1] at hi
    rw [List.getElem?_append_right (by omega)]
    congr 1; omega

theorem dropFrom_congr (c : Nat) (ps qs l : List Nat) (h : ∀ i, c ≤ i → i < c + l.length → (i ∈ ps ↔ i ∈ qs)) :
    dropFrom c ps l = dropFrom c qs l := by
  unfold dropFrom
  congr 1
  apply List.filter_congr
  intro i hi
  rw [List.mem_range'_1] at hi
  have : ps.contains i = qs.contains i := by
    rw [Bool.eq_iff_iff, List.contains_iff_mem, List.contains_iff_mem]
    exact h i hi.1 hi.2
  rw [this]

theorem dropFrom_shift (c : Nat) (ps l : List Nat) (h : ∀ p ∈ ps, c ≤ p) :
    dropFrom c ps l = dropAt (ps.map (fun p => p - c)) l := by
  unfold dropFrom dropAt
  have e : List.range' c l.length = (List.range l.length).map (c + ·) := by
    rw [List.range_eq_range', List.map_add_range']; simp
  rw [e, List.filter_map, List.filterMap_map]
  have e2 : (List.range l.length).filter ((fun i => !ps.contains i) ∘ fun x => c + x) =
      (List.range l.length).filter (fun i => !(ps.map (fun p => p - c)).contains i) := by
    apply List.filter_congr
    intro i _
    have : ps.contains (c + i) = (ps.map (fun p => p - c)).contains i := by
      rw [Bool.eq_iff_iff, List.contains_iff_mem, List.contains_iff_mem, List.mem_map]
      constructor
      · intro hm; exact ⟨c + i, hm, by omega⟩
      · rintro ⟨p, hp, e⟩
        have := h p hp
        have : p = c + i := by omega
        subst this; exact hp
    simp only [Function.comp, this]
  rw [e2]
  apply filterMap_congr'
  intro i _
  simp only [Function.comp]
  congr 1; omega

theorem inc_takeWhile (ps : List Nat) (h : Inc ps) (k : Nat) :
    ps.takeWhile (fun p => decide (p < k)) = ps.filter (fun p => decide (p < k)) ∧
    ps.dropWhile (fun p => decide (p < k)) = ps.filter (fun p => decide (k ≤ p)) := by
  induction ps with
  | nil => exact ⟨rfl, rfl⟩
  | cons x xs ih =>
    obtain ⟨h1, h2⟩ := List.pairwise_cons.1 h
    obtain ⟨i1, i2⟩ := ih h2
    by_cases hx : x < k
    · have hx' : ¬ k ≤ x := by omega
      simp [List.takeWhile_cons, List.dropWhile_cons, List.filter_cons, hx, hx', i1, i2]
    · have hx' : k ≤ x := by omega
      constructor
      · rw [List.takeWhile_cons, if_neg (by simpa using hx)]
        rw [eq_comm, List.filter_eq_nil_iff]
        intro y hy
        rcases List.mem_cons.1 hy with rfl | hy
        · simpa using hx
        · have := h1 y hy; simp; omega
      · rw [List.dropWhile_cons, if_neg (by simpa using hx)]
        rw [eq_comm, List.filter_eq_self]
        intro y hy
        rcases List.mem_cons.1 hy with rfl | hy
        · simpa using hx'
        · have := h1 y hy; simp; omega

theorem maskLoop_spec (q : Seq) (hq : ∀ sg ∈ q, sg.Good ∧ Small sg.iter) (ps : List Nat) (c : Nat)
    (hinc : Inc ps) (hb : ∀ p ∈ ps, c ≤ p ∧ p < c + (iter q).length) (hlen : c + (iter q).length < 4294967296) :
    ∃ q', maskLoop q ps c c = some q' ∧ (∀ sg ∈ q', sg.Good) ∧ iter q' = dropFrom c ps (iter q) := by
  induction q generalizing ps c with
  | nil => exact ⟨[], rfl, by simp, rfl⟩
  | cons sg q ih =>
    obtain ⟨hg, hs⟩ := hq sg List.mem_cons_self
    rw [iter_cons, List.length_append] at hb hlen
    have hl := Seg.len_eq sg hg.1
    obtain ⟨ht, hd⟩ := inc_takeWhile ps hinc (c + sg.iter.length)
    unfold maskLoop
    simp only [hl, Nat.mod_eq_of_lt (show sg.iter.length < 4294967296 by omega)]
    rw [if_neg (by omega), ht, hd]
    have hany : ((ps.filter (fun p => decide (p < c + sg.iter.length))).any (fun p => decide (p < c))) = false := by
      rw [List.any_eq_false]
      intro p hp
      have := hb p (List.mem_filter.1 hp).1
      simp; omega
    rw [hany]
    simp only [Bool.false_eq_true, if_false]
    have hloc_inc : Inc ((ps.filter (fun p => decide (p < c + sg.iter.length))).map (fun p => p - c)) := by
      unfold Inc
      rw [List.pairwise_map]
      apply List.Pairwise.imp_of_mem _ (hinc.filter _)
      intro a b ha hb' hab
      have h1 := hb a (List.mem_filter.1 ha).1
      have h2 := hb b (List.mem_filter.1 hb').1
      omega
    have hloc_b : ∀ p ∈ (ps.filter (fun p => decide (p < c + sg.iter.length))).map (fun p => p - c),
        p < sg.iter.length := by
      intro p hp
      obtain ⟨r, hr, rfl⟩ := List.mem_map.1 hp
      rw [List.mem_filter] at hr
      have h1 := hb r hr.1
      have h2 := hr.2
      simp at h2
      omega
    obtain ⟨sg', m1, m2, m3⟩ := Seg.mask_good sg hg hs _ hloc_inc hloc_b (by omega)
    have hbranch : (if ((ps.filter (fun p => decide (p < c + sg.iter.length))).map (fun p => p - c)).isEmpty = true
        then some sg else sg.mask ((ps.filter (fun p => decide (p < c + sg.iter.length))).map (fun p => p - c)))
        = some sg' := by
      split
      · rename_i he
        rw [← m1]
        unfold Seg.mask
        rw [if_pos he]
      · exact m1
    rw [hbranch]
    obtain ⟨q', q1, q2, q3⟩ := ih (fun s hs => hq s (List.mem_cons_of_mem _ hs))
      (ps.filter (fun p => decide (c + sg.iter.length ≤ p))) (c + sg.iter.length) (hinc.filter _)
      (by
        intro p hp
        rw [List.mem_filter] at hp
        have h1 := hb p hp.1
        have h2 := hp.2
        simp at h2
        omega) (by omega)
    simp only
    rw [q1]
    refine ⟨sg' :: q', rfl, ?_, ?_⟩
    · intro s hs
      rcases List.mem_cons.1 hs with rfl | hs
      · exact m2
      · exact q2 s hs
    · rw [iter_cons, iter_cons, m3, q3, dropFrom_append]
      congr 1
      · rw [dropFrom_congr c ps (ps.filter (fun p => decide (p < c + sg.iter.length))) sg.iter (by
          intro i h1 h2; simp [List.mem_filter, h2])]
        rw [dropFrom_shift c _ _ (fun p hp => (hb p (List.mem_filter.1 hp).1).1)]
      · apply dropFrom_congr
        intro i h1 h2
        simp [List.mem_filter, h1]

theorem iter_filter_nonempty (q : Seq) (h : ∀ sg ∈ q, sg.WF) :
    iter (q.filter (fun sg => sg.len != 0)) = iter q := by
  induction q with
  | nil => rfl
  | cons sg q ih =>
    have ih' := ih (fun s hs => h s (List.mem_cons_of_mem _ hs))
    rw [List.filter_cons]
    split
    · rw [iter_cons, iter_cons, ih']
    · rename_i h0
      rw [iter_cons, ih']
      have hl := Seg.len_eq sg (h sg List.mem_cons_self)
      have : sg.iter = [] := by
        apply List.eq_nil_of_length_eq_zero
        rw [← hl]; simpa using h0
      rw [this]; rfl

/-! ## get and slice -/

theorem getFrom_spec (q : Seq) (h : ∀ sg ∈ q, sg.WF) (index offset : Nat) (ho : offset ≤ index) :
    getFrom q index offset = (iter q)[index - offset]? := by
  induction q generalizing offset with
  | nil => rfl
  | cons sg q ih =>
    have hw := h sg List.mem_cons_self
    have hl := Seg.len_eq sg hw
    unfold getFrom
    rw [iter_cons]
    split
    · rw [Seg.get_eq sg hw, List.getElem?_append_left (by omega)]
    · rw [ih (fun s hs => h s (List.mem_cons_of_mem _ hs)) _ (by omega), List.getElem?_append_right (by omega)]
      congr 1; omega

theorem findStart_spec (q : Seq) (h : ∀ sg ∈ q, sg.WF) (off : Nat) (hlt : off < (iter q).length) :
    ∃ sg rest os, findStart q off = (sg :: rest, os) ∧ os < sg.iter.length ∧
      (iter (sg :: rest)).drop os = (iter q).drop off ∧ ∀ s ∈ sg :: rest, s.WF := by
  induction q generalizing off with
  | nil => simp [iter] at hlt
  | cons sg q ih =>
    have hw := h sg List.mem_cons_self
    have hl := Seg.len_eq sg hw
    unfold findStart
    rw [iter_cons, List.length_append] at hlt
    split
    · exact ⟨sg, q, off, rfl, by omega, rfl, h⟩
    · obtain ⟨s, r, os, h1, h2, h3, h4⟩ := ih (fun s hs => h s (List.mem_cons_of_mem _ hs)) (off - sg.len) (by omega)
      refine ⟨s, r, os, h1, h2, ?_, h4⟩
      rw [h3, iter_cons, List.drop_append, List.drop_eq_nil_of_le (as := sg.iter) (by omega), List.nil_append, hl]

theorem findLast_spec (q : Seq) (h : ∀ sg ∈ q, sg.WF) (m : Nat) (hpos : 0 < m) (hle : m ≤ (iter q).length) :
    (findLast q m).1 < q.length ∧
    sliceTail (findLast q m).2 (q.take ((findLast q m).1 + 1)) = (iter q).take m := by
  induction q generalizing m with
  | nil => simp [iter] at hle; omega
  | cons sg q ih =>
    have hw := h sg List.mem_cons_self
    have hl := Seg.len_eq sg hw
    rw [iter_cons, List.length_append] at hle
    unfold findLast
    by_cases hm : m ≤ sg.len
    · rw [if_pos hm]
      simp only [List.length_cons, Nat.zero_add, List.take_succ_cons, List.take_zero, sliceTail]
      refine ⟨by omega, ?_⟩
      rw [iter_cons, List.take_append_of_le_length (by omega)]
    · rw [if_neg hm]
      obtain ⟨h1, h2⟩ := ih (fun s hs => h s (List.mem_cons_of_mem _ hs)) (m - sg.len) (by omega) (by omega)
      simp only [List.length_cons, List.take_succ_cons]
      refine ⟨by omega, ?_⟩
      have hne : ∃ y ys, q.take ((findLast q (m - sg.len)).1 + 1) = y :: ys := by
        cases q with
        | nil => simp at h1
        | cons y ys => exact ⟨y, _, List.take_succ_cons⟩
      obtain ⟨y, ys, e⟩ := hne
      rw [e] at h2 ⊢
      simp only [sliceTail]
      rw [h2, iter_cons, List.take_append, List.take_of_length_le (l := sg.iter) (by omega), hl]

theorem slice_spec (q : Seq) (h : ∀ sg ∈ q, sg.WF) (off n : Nat) (hb : off + n ≤ (iter q).length) :
    (slice q off n).bind Slice.iter = some (((iter q).drop off).take n) := by
  unfold slice
  by_cases hn : n = 0
  · subst hn; simp [Slice.iter]
  · rw [if_neg hn]
    obtain ⟨sg, rest, os, h1, h2, h3, h4⟩ := findStart_spec q h off (by omega)
    rw [h1]
    simp only
    have hlen : ((iter (sg :: rest)).drop os).length = (iter q).length - off := by rw [h3]; simp
    rw [List.length_drop] at hlen
    have hl := Seg.len_eq sg (h4 sg List.mem_cons_self)
    have hk := (findLast_spec (sg :: rest) h4 (os + n) (by omega) (by omega)).1
    generalize hf : findLast (sg :: rest) (os + n) = f at hk
    obtain ⟨k, ol⟩ := f
    simp only at hk ⊢
    rw [if_pos hk]
    simp only [Option.bind]
    rw [← h3]
    unfold findLast at hf
    by_cases hm : os + n ≤ sg.len
    · rw [if_pos hm] at hf
      cases hf
      simp only [Nat.zero_add, List.take_succ_cons, List.take_zero, Slice.iter]
      rw [if_neg (by omega), iter_cons, List.drop_append_of_le_length (by omega),
        List.take_append_of_le_length (by simp; omega)]
      congr 2; omega
    · rw [if_neg hm] at hf
      cases hf
      rw [iter_cons, List.length_append] at hlen
      obtain ⟨t1, t2⟩ := findLast_spec rest (fun s hs => h4 s (List.mem_cons_of_mem _ hs)) (os + n - sg.len)
        (by omega) (by omega)
      have hne : ∃ y ys, rest.take ((findLast rest (os + n - sg.len)).1 + 1) = y :: ys := by
        cases rest with
        | nil => simp at t1
        | cons y ys => exact ⟨y, _, List.take_succ_cons⟩
      obtain ⟨y, ys, e⟩ := hne
      rw [List.take_succ_cons]
      rw [e] at t2 ⊢
      simp only [Slice.iter]
      rw [t2, iter_cons, List.drop_append_of_le_length (by omega), List.take_append,
        List.take_of_length_le (l := sg.iter.drop os) (by rw [List.length_drop]; omega)]
      congr 3
      rw [List.length_drop]; omega

/-! ## Re-chunking -/

/-- Segments that re-chunking handles: representation sliced correctly, not empty. -/
def Chunkable (sg : Seg) : Prop := sg.WF ∧ sg.Sliceable ∧ sg.iter ≠ []

/-- The read position is inside the first segment. -/
def OffsetOk : Seq → Nat → Prop
  | [], off => off = 0
  | sg :: _, off => off < sg.iter.length

theorem chunkLoop_ok (segs : Seq) (hs : ∀ sg ∈ segs, Chunkable sg) (off remaining : Nat) (acc : Seq)
    (hacc : ∀ sg ∈ acc, sg.WF) (ho : OffsetOk segs off) (hr : remaining ≤ (iter segs).length - off) :
    ∃ chunk segs' off', chunkLoop segs off remaining acc = .ok (chunk, segs', off') ∧
      (∀ sg ∈ chunk, sg.WF) ∧ iter chunk = iter acc ++ ((iter segs).drop off).take remaining ∧
      (∀ sg ∈ segs', Chunkable sg) ∧ OffsetOk segs' off' ∧
      (iter segs').drop off' = ((iter segs).drop off).drop remaining := by
  induction segs generalizing off remaining acc with
  | nil =>
    simp only [iter_nil, List.length_nil] at hr
    have : remaining = 0 := by omega
    subst this
    refine ⟨acc, [], off, by simp [chunkLoop], hacc, by simp, by simp, ho, by simp⟩
  | cons sg rest ih =>
    obtain ⟨hw, hsl, hne⟩ := hs sg List.mem_cons_self
    have hl := Seg.len_eq sg hw
    have ho' : off < sg.iter.length := ho
    unfold chunkLoop
    by_cases h0 : remaining = 0
    · subst h0
      rw [if_pos rfl]
      exact ⟨acc, sg :: rest, off, rfl, hacc, by simp, hs, ho, by simp⟩
    · rw [if_neg h0, if_neg (by omega)]
      by_cases hgt : sg.len - off > remaining
      · rw [if_pos hgt]
        obtain ⟨s, s1, s2, s3⟩ := Seg.slice_ok sg hw hsl off remaining (by omega)
        unfold sliceE
        rw [s1]
        simp only
        obtain ⟨e1, e2⟩ := extend_spec acc [s] hacc (by simpa using s2)
        refine ⟨_, _, _, rfl, e2, ?_, hs, ?_, ?_⟩
        · rw [e1, iter_cons, iter_nil, List.append_nil, s3, iter_cons,
            List.drop_append_of_le_length (by omega), List.take_append_of_le_length (by simp; omega)]
        · show off + remaining < sg.iter.length
          omega
        · rw [List.drop_drop]
      · rw [if_neg hgt, if_neg (by omega)]
        obtain ⟨s, s1, s2, s3⟩ := Seg.slice_ok sg hw hsl off (sg.len - off) (by omega)
        unfold sliceE
        rw [s1]
        simp only
        obtain ⟨e1, e2⟩ := extend_spec acc [s] hacc (by simpa using s2)
        rw [iter_cons, List.length_append] at hr
        have hrest : ∀ sg ∈ rest, Chunkable sg := fun x hx => hs x (List.mem_cons_of_mem _ hx)
        have ho2 : OffsetOk rest 0 := by
          cases rest with
          | nil => rfl
          | cons y ys => exact List.length_pos_iff.2 (hrest y List.mem_cons_self).2.2
        obtain ⟨chunk, segs', off', c1, c2, c3, c4, c5, c6⟩ := ih hrest 0 (remaining - (sg.len - off))
          (extend acc [s]) e2 ho2 (by omega)
        refine ⟨chunk, segs', off', c1, c2, ?_, c4, c5, ?_⟩
        · rw [c3, e1, iter_cons, iter_nil, List.append_nil, s3, iter_cons,
            List.drop_append_of_le_length (by omega), List.take_append, List.drop_zero]
          rw [List.take_of_length_le (show (sg.iter.drop off).length ≤ sg.len - off by simp; omega)]
          rw [List.take_of_length_le (show (sg.iter.drop off).length ≤ remaining by simp; omega)]
          rw [List.append_assoc]
          congr 3
          simp; omega
        · rw [c6, List.drop_zero, iter_cons, List.drop_append_of_le_length (by omega), List.drop_append,
            List.drop_eq_nil_of_le (as := sg.iter.drop off) (by rw [List.length_drop]; omega), List.nil_append]
          congr 1
          rw [List.length_drop]; omega

theorem chunkLoop_tooMany (segs : Seq) (hs : ∀ sg ∈ segs, Chunkable sg) (off remaining : Nat) (acc : Seq)
    (hacc : ∀ sg ∈ acc, sg.WF) (ho : OffsetOk segs off) (hr : (iter segs).length - off < remaining) :
    chunkLoop segs off remaining acc = .error .tooMany := by
  induction segs generalizing off remaining acc with
  | nil =>
    unfold chunkLoop
    rw [if_neg (by omega)]
  | cons sg rest ih =>
    obtain ⟨hw, hsl, hne⟩ := hs sg List.mem_cons_self
    have hl := Seg.len_eq sg hw
    have ho' : off < sg.iter.length := ho
    rw [iter_cons, List.length_append] at hr
    unfold chunkLoop
    rw [if_neg (by omega), if_neg (by omega), if_neg (by omega), if_neg (by omega)]
    obtain ⟨s, s1, s2, s3⟩ := Seg.slice_ok sg hw hsl off (sg.len - off) (by omega)
    unfold sliceE
    rw [s1]
    simp only
    obtain ⟨e1, e2⟩ := extend_spec acc [s] hacc (by simpa using s2)
    have hrest : ∀ sg ∈ rest, Chunkable sg := fun x hx => hs x (List.mem_cons_of_mem _ hx)
    have ho2 : OffsetOk rest 0 := by
      cases rest with
      | nil => rfl
      | cons y ys => exact List.length_pos_iff.2 (hrest y List.mem_cons_self).2.2
    exact ih hrest 0 _ _ e2 ho2 (by omega)

/-- Cut a list into consecutive pieces of the given sizes. -/
def cut : List Nat → List Nat → List (List Nat)
  | [], _ => []
  | n :: ns, l => l.take n :: cut ns (l.drop n)

theorem chunksLoop_spec (sizes : List Nat) (segs : Seq) (hs : ∀ sg ∈ segs, Chunkable sg) (off : Nat)
    (ho : OffsetOk segs off) :
    (sizes.sum ≤ (iter segs).length - off → ∃ cs left offl, chunksLoop sizes segs off = .ok (cs, left) ∧
      cs.map iter = cut sizes ((iter segs).drop off) ∧ OffsetOk left offl ∧
      (iter left).drop offl = ((iter segs).drop off).drop sizes.sum ∧ (∀ c ∈ cs, ∀ sg ∈ c, sg.WF)) ∧
    ((iter segs).length - off < sizes.sum → chunksLoop sizes segs off = .error .tooMany) := by
  induction sizes generalizing segs off with
  | nil =>
    refine ⟨fun _ => ⟨[], segs, off, rfl, rfl, ho, by simp, by simp⟩, fun h => by simp at h⟩
  | cons n ns ih =>
    simp only [List.sum_cons]
    constructor
    · intro hsum
      obtain ⟨chunk, segs', off', c1, c2, c3, c4, c5, c6⟩ := chunkLoop_ok segs hs off n [] (by simp) ho (by omega)
      have hl : (iter segs').length - off' = (iter segs).length - off - n := by
        rw [← List.length_drop, c6, List.length_drop, List.length_drop]
      obtain ⟨cs, left, offl, d1, d2, d3, d4, d5⟩ := (ih segs' c4 off' c5).1 (by omega)
      refine ⟨chunk :: cs, left, offl, ?_, ?_, d3, ?_, ?_⟩
      · unfold chunksLoop; rw [c1]; simp only; rw [d1]
      · rw [List.map_cons, c3, iter_nil, List.nil_append, d2, c6]; rfl
      · rw [d4, c6, List.drop_drop]
      · intro c hc
        rcases List.mem_cons.1 hc with rfl | hc
        · exact c2
        · exact d5 c hc
    · intro hsum
      unfold chunksLoop
      by_cases hn : n ≤ (iter segs).length - off
      · obtain ⟨chunk, segs', off', c1, c2, c3, c4, c5, c6⟩ := chunkLoop_ok segs hs off n [] (by simp) ho hn
        have hl : (iter segs').length - off' = (iter segs).length - off - n := by
          rw [← List.length_drop, c6, List.length_drop, List.length_drop]
        rw [c1]
        simp only
        rw [(ih segs' c4 off' c5).2 (by omega)]
      · rw [chunkLoop_tooMany segs hs off n [] (by simp) ho (by omega)]

theorem cut_flatten (sizes l : List Nat) (h : sizes.sum = l.length) : (cut sizes l).flatten = l := by
  induction sizes generalizing l with
  | nil =>
    have : l = [] := List.eq_nil_of_length_eq_zero (by simpa using h.symm)
    subst this; rfl
  | cons n ns ih =>
    simp only [List.sum_cons] at h
    simp only [cut, List.flatten_cons]
    rw [ih (l.drop n) (by simp; omega), List.take_append_drop]

theorem cut_lengths (sizes l : List Nat) (h : sizes.sum ≤ l.length) : (cut sizes l).map List.length = sizes := by
  induction sizes generalizing l with
  | nil => rfl
  | cons n ns ih =>
    simp only [List.sum_cons] at h
    simp only [cut, List.map_cons, List.length_take]
    rw [ih (l.drop n) (by simp; omega)]
    congr 1; omega

theorem iter_flatten (seqs : List Seq) : iter seqs.flatten = seqs.flatMap iter := by
  induction seqs with
  | nil => rfl
  | cons q qs ih => rw [List.flatten_cons, iter_append, ih, List.flatMap_cons]

/-! ## Conversion to a row set -/

open Verif.RowSet (TreeMap contains)

/-- Ids inside the hull of a segment that it does not hold. -/
def gap : Seg → Nat → Prop
  | .holes s e h, w => s ≤ w ∧ w < e ∧ w ∈ h.iter
  | .bitmap s e b, w => s ≤ w ∧ w < e ∧ bit b.data (w - s) = false
  | _, _ => False

/-- Segments that the conversion handles: no empty range ending at 0, ids below the last fragment. -/
def Convertible (sg : Seg) : Prop :=
  sg.WF ∧ (∀ s e, sg = .range s e → e ≠ 0) ∧
  match sg with
  | .range _ e => e ≤ 4294967295 * 4294967296
  | .holes _ e _ => e ≤ 4294967295 * 4294967296
  | .bitmap _ e _ => e ≤ 4294967295 * 4294967296
  | .sorted a => ∀ v ∈ a.iter, v < U64
  | .array a => ∀ v ∈ a.iter, v < U64

theorem insertRange_total (m : TreeMap) (s e : Nat) (h : 0 < e) (he : e ≤ 4294967295 * 4294967296) :
    ∃ m', RowSet.insertRange m (.incl s) (.excl e) = some m' := by
  unfold RowSet.insertRange
  dsimp only
  split
  · rename_i h1
    have h2 := h1.2
    simp only [RowSet.highBound] at h2
    rw [RowSet.fragmentId_eq (by omega)] at h2
    omega
  · exact ⟨_, rfl⟩

theorem foldl_remove (l : List Nat) (p : Nat → Bool) (m : TreeMap) (hm : SMap.Sorted m) (hl : ∀ v ∈ l, v < 2 ^ 64)
    (S : Nat → Prop) (hS : ∀ w, w < 2 ^ 64 → (contains m w = true ↔ S w)) :
    SMap.Sorted (l.foldl (fun m v => if p v then m else RowSet.remove m v) m) ∧
    ∀ w, w < 2 ^ 64 → (contains (l.foldl (fun m v => if p v then m else RowSet.remove m v) m) w = true ↔
      S w ∧ ¬ (w ∈ l ∧ p w = false)) := by
  induction l generalizing m S with
  | nil => exact ⟨hm, fun w hw => by simp [hS w hw]⟩
  | cons v vs ih =>
    simp only [List.foldl_cons]
    have hvs : ∀ v ∈ vs, v < 2 ^ 64 := fun x hx => hl x (List.mem_cons_of_mem _ hx)
    by_cases hp : p v = true
    · rw [if_pos hp]
      obtain ⟨h1, h2⟩ := ih m hm hvs S hS
      refine ⟨h1, fun w hw => ?_⟩
      rw [h2 w hw]
      constructor
      · rintro ⟨a, b⟩
        refine ⟨a, ?_⟩
        rintro ⟨c, d⟩
        rcases List.mem_cons.1 c with rfl | c
        · rw [hp] at d; cases d
        · exact b ⟨c, d⟩
      · rintro ⟨a, b⟩
        exact ⟨a, fun ⟨c, d⟩ => b ⟨List.mem_cons_of_mem _ c, d⟩⟩
    · rw [if_neg hp]
      have hstep : RowSet.step m (.remove v) = some (RowSet.remove m v) := rfl
      have hsp := fun w hw => RowSet.step_spec m _ (.remove v) hm (hl v List.mem_cons_self) trivial hstep S hS w hw
      obtain ⟨h1, h2⟩ := ih _ (RowSet.step_sorted m _ (.remove v) hm hstep) hvs _ hsp
      refine ⟨h1, fun w hw => ?_⟩
      rw [h2 w hw]
      simp only [RowSet.specStep]
      have hpf : p v = false := by simpa using hp
      constructor
      · rintro ⟨⟨a, b⟩, c⟩
        refine ⟨a, ?_⟩
        rintro ⟨d, e⟩
        rcases List.mem_cons.1 d with rfl | d
        · exact b rfl
        · exact c ⟨d, e⟩
      · rintro ⟨a, b⟩
        refine ⟨⟨a, ?_⟩, fun ⟨c, d⟩ => b ⟨List.mem_cons_of_mem _ c, d⟩⟩
        rintro rfl
        exact b ⟨List.mem_cons_self, hpf⟩

theorem foldl_insert_spec (l : List Nat) (m : TreeMap) (hm : SMap.Sorted m) (hl : ∀ v ∈ l, v < 2 ^ 64)
    (S : Nat → Prop) (hS : ∀ w, w < 2 ^ 64 → (contains m w = true ↔ S w)) :
    SMap.Sorted (l.foldl RowSet.insert m) ∧
    ∀ w, w < 2 ^ 64 → (contains (l.foldl RowSet.insert m) w = true ↔ S w ∨ w ∈ l) := by
  have hstep : RowSet.step m (.extendIds l) = some (l.foldl RowSet.insert m) := rfl
  exact ⟨RowSet.step_sorted m _ (.extendIds l) hm hstep,
    fun w hw => RowSet.step_spec m _ (.extendIds l) hm hl trivial hstep S hS w hw⟩

theorem addSeg_spec (m : TreeMap) (hm : SMap.Sorted m) (sg : Seg) (hc : Convertible sg)
    (S : Nat → Prop) (hS : ∀ w, w < 2 ^ 64 → (contains m w = true ↔ S w)) :
    ∃ m', addSeg m sg = some m' ∧ SMap.Sorted m' ∧
      ∀ w, w < 2 ^ 64 → (contains m' w = true ↔ (S w ∧ ¬ gap sg w) ∨ w ∈ sg.iter) := by
  obtain ⟨hw, h0, hb⟩ := hc
  have hrange : ∀ s e, s ≤ e → e ≠ 0 → e ≤ 4294967295 * 4294967296 →
      ∃ m1, RowSet.insertRange m (.incl s) (.excl e) = some m1 ∧ SMap.Sorted m1 ∧
        ∀ w, w < 2 ^ 64 → (contains m1 w = true ↔ S w ∨ (s ≤ w ∧ w < e)) := by
    intro s e hse he0 he
    obtain ⟨m1, h1⟩ := insertRange_total m s e (by omega) he
    have hstep : RowSet.step m (.insertRange (.incl s) (.excl e)) = some m1 := h1
    refine ⟨m1, h1, RowSet.step_sorted m _ _ hm hstep, fun w hw => ?_⟩
    exact RowSet.step_spec m m1 (.insertRange (.incl s) (.excl e)) hm
      ⟨show s < 2 ^ 64 by omega, show e < 2 ^ 64 by omega⟩ (by
        show RowSet.Bound.excl e ≠ .excl 0
        intro h; cases h; exact he0 rfl) hstep S hS w hw
  cases sg with
  | range s e =>
    obtain ⟨m1, h1, h2, h3⟩ := hrange s e hw.1 (h0 s e rfl) hb
    refine ⟨m1, h1, h2, fun w hww => ?_⟩
    rw [h3 w hww]
    simp only [gap, not_false_eq_true, and_true, Seg.iter, List.mem_range'_1]
    have := hw.1
    constructor
    · rintro (h | h)
      · exact Or.inl h
      · right; omega
    · rintro (h | h)
      · exact Or.inl h
      · right; omega
  | holes s e hh =>
    obtain ⟨w1, w2, w3, w4, w5⟩ := hw
    obtain ⟨m1, h1, h2, h3⟩ := hrange s e (by omega) (by omega) hb
    have hf : (fun (m : TreeMap) v => if (fun _ => false) v = true then m else RowSet.remove m v) = RowSet.remove := by
      funext m v; simp
    obtain ⟨f1, f2⟩ := foldl_remove hh.iter (fun _ => false) m1 h2
      (fun v hv => by have := w5 v hv; omega) _ h3
    rw [hf] at f1 f2
    refine ⟨_, by simp only [addSeg, h1, Option.map_some], f1, fun w hww => ?_⟩
    rw [f2 w hww, Seg.iter_holes s e hh w3, List.mem_filter, List.mem_range'_1]
    simp only [gap, Bool.not_eq_true', List.contains_eq_mem, decide_eq_false_iff_not, and_true]
    constructor
    · rintro ⟨h | h, hn⟩
      · exact Or.inl ⟨h, fun ⟨_, _, c⟩ => hn c⟩
      · exact Or.inr ⟨by omega, hn⟩
    · rintro (⟨h, hn⟩ | ⟨h, hn⟩)
      · refine ⟨Or.inl h, fun hc => hn ?_⟩
        have := w5 w hc
        exact ⟨this.1, this.2, hc⟩
      · exact ⟨Or.inr (by omega), hn⟩
  | bitmap s e b =>
    obtain ⟨w1, w2, w3, w4⟩ := hw
    obtain ⟨m1, h1, h2, h3⟩ := hrange s e (by omega) (by omega) hb
    obtain ⟨f1, f2⟩ := foldl_remove (List.range' s (e - s)) (fun v => (b.get (v - s)).getD false) m1 h2
      (fun v hv => by rw [List.mem_range'_1] at hv; omega) _ h3
    refine ⟨_, by simp only [addSeg, h1, Option.map_some], f1, fun w hww => ?_⟩
    rw [f2 w hww, Seg.iter_bitmap s e b w3 w4, List.mem_filter, List.mem_range'_1]
    have hlen := w3.1
    simp only [gap]
    by_cases hin : s ≤ w ∧ w < e
    · rw [Bitmap.get_eq b (w - s) (by omega)]
      simp only [Option.getD_some]
      have hin' : s ≤ w ∧ w < s + (e - s) := by omega
      cases bit b.data (w - s) <;> simp [hin, hin']
    · have hin' : ¬ (s ≤ w ∧ w < s + (e - s)) := by omega
      have hin2 : ¬ (s ≤ w ∧ w < e ∧ bit b.data (w - s) = false) := fun h => hin ⟨h.1, h.2.1⟩
      simp only [hin, hin', hin2, false_and, or_false, not_false_eq_true, and_true]
  | sorted a =>
    obtain ⟨f1, f2⟩ := foldl_insert_spec a.iter m hm (fun v hv => by have := hb v hv; omega) S hS
    exact ⟨_, rfl, f1, fun w hww => by rw [f2 w hww]; simp [gap, Seg.iter]⟩
  | array a =>
    obtain ⟨f1, f2⟩ := foldl_insert_spec a.iter m hm (fun v hv => by have := hb v hv; omega) S hS
    exact ⟨_, rfl, f1, fun w hww => by rw [f2 w hww]; simp [gap, Seg.iter]⟩

/-- What the conversion computes: later gaps remove earlier ids. -/
def convSpec (S : Nat → Prop) : Seq → Nat → Prop
  | [] => S
  | sg :: q => convSpec (fun w => (S w ∧ ¬ gap sg w) ∨ w ∈ sg.iter) q

theorem foldl_addSeg (q : Seq) (hq : ∀ sg ∈ q, Convertible sg) (m : TreeMap) (hm : SMap.Sorted m)
    (S : Nat → Prop) (hS : ∀ w, w < 2 ^ 64 → (contains m w = true ↔ S w)) :
    ∃ m', q.foldl (fun m sg => m.bind (fun m => addSeg m sg)) (some m) = some m' ∧
      ∀ w, w < 2 ^ 64 → (contains m' w = true ↔ convSpec S q w) := by
  induction q generalizing m S with
  | nil => exact ⟨m, rfl, hS⟩
  | cons sg q ih =>
    obtain ⟨m1, h1, h2, h3⟩ := addSeg_spec m hm sg (hq sg List.mem_cons_self) S hS
    obtain ⟨m', h4, h5⟩ := ih (fun s hs => hq s (List.mem_cons_of_mem _ hs)) m1 h2 _ h3
    refine ⟨m', ?_, h5⟩
    simp only [List.foldl_cons, Option.bind_some, h1]
    exact h4

theorem convSpec_of_disjoint (q : Seq) (S : Nat → Prop) (w : Nat)
    (hS : S w → ∀ sg ∈ q, ¬ gap sg w)
    (hp : q.Pairwise (fun a b => ∀ v ∈ a.iter, ¬ gap b v)) :
    convSpec S q w ↔ S w ∨ w ∈ iter q := by
  induction q generalizing S with
  | nil => simp [convSpec, iter]
  | cons sg q ih =>
    obtain ⟨h1, h2⟩ := List.pairwise_cons.1 hp
    simp only [convSpec]
    rw [ih _ _ h2, iter_cons, List.mem_append]
    · constructor
      · rintro ((⟨h, _⟩ | h) | h)
        · exact Or.inl h
        · exact Or.inr (Or.inl h)
        · exact Or.inr (Or.inr h)
      · rintro (h | h | h)
        · exact Or.inl (Or.inl ⟨h, hS h sg List.mem_cons_self⟩)
        · exact Or.inl (Or.inr h)
        · exact Or.inr h
    · rintro (⟨h, _⟩ | h) sg' hsg'
      · exact hS h sg' (List.mem_cons_of_mem _ hsg')
      · exact h1 sg' hsg' w h

end Seq
end Verif.RowIds
