import Verif.Mini.LemmasBinary
/-!
# Mini-blocks of strings: the codecs give their strings back
-/
namespace Verif.Mini
open Fsst (strings offsetsFrom OffsetsOk)

/-- The part of a list that a range stands for. -/
def partOf {A : Type} (S : List A) (r : Nat × Nat) : List A := (S.drop r.1).take (r.2 - r.1)

theorem chain_ne {offs : List Nat} {n a : Nat} {rs : List (Nat × Nat)} (h : Chain offs n a rs) : rs ≠ [] := by
  intro h0; subst h0; exact h

theorem chain_flatten {A : Type} (offs : List Nat) (S : List A) : ∀ (rs : List (Nat × Nat)) (a : Nat),
    Chain offs S.length a rs → (rs.map (partOf S)).flatten = S.drop a := by
  intro rs
  induction rs with
  | nil => intro a h; exact absurd h (by simp [Chain])
  | cons r rest ih =>
    intro a h
    obtain ⟨s, e⟩ := r
    cases rest with
    | nil =>
      obtain ⟨h1, h2, h3, _⟩ := h
      subst h1; subst h2
      simp only [List.map_cons, List.map_nil, List.flatten_cons, List.flatten_nil, List.append_nil, partOf]
      rw [List.take_of_length_le (by rw [List.length_drop]; omega)]
    | cons r rest =>
      obtain ⟨h1, h2, h3, _, _, h6⟩ := h
      subst h1
      rw [List.map_cons, List.flatten_cons, ih e h6, partOf]
      simp only
      conv => rhs; rw [← List.take_append_drop (e - s) (S.drop s)]
      rw [List.drop_drop, show s + (e - s) = e by omega]

theorem chain_get (offs : List Nat) (n : Nat) : ∀ (rs : List (Nat × Nat)) (a : Nat), Chain offs n a rs →
    ∀ k (hk : k < rs.length), rs[k].1 < rs[k].2 ∧ rs[k].2 ≤ n ∧ spanSize offs rs[k].1 rs[k].2 ≤ 4096 ∧
      (k + 1 = rs.length → rs[k].2 = n) ∧
      (k + 1 < rs.length → rs[k].2 < n ∧ ∃ j, 0 < j ∧ rs[k].2 = rs[k].1 + 2 ^ j) := by
  intro rs
  induction rs with
  | nil => intro a h; exact absurd h (by simp [Chain])
  | cons r rest ih =>
    intro a h k hk
    obtain ⟨s, e⟩ := r
    cases rest with
    | nil =>
      obtain ⟨h1, h2, h3, h4⟩ := h
      have : k = 0 := by simp at hk; omega
      subst this
      refine ⟨?_, ?_, h4, fun _ => h2, fun h => ?_⟩
      · show s < e; omega
      · show e ≤ n; omega
      · simp at h
    | cons r rest =>
      obtain ⟨h1, h2, h3, h4, h5, h6⟩ := h
      cases k with
      | zero =>
        refine ⟨?_, ?_, h4, fun h => ?_, fun _ => ⟨h3, h5⟩⟩
        · show s < e; omega
        · show e ≤ n; omega
        · simp at h
      | succ k =>
        have := ih e h6 k (by simpa using hk)
        simpa using this

/-- What the cut of a block of strings into chunks is. -/
structure BinCut (c : Compressed) (n : Nat) (rs : List (Nat × Nat)) (S : List (List Nat)) : Prop where
  len : S.length = n
  chain : ∀ (A : Type) (T : List A), T.length = n → (rs.map (partOf T)).flatten = T
  nonempty : rs ≠ []
  data : c.data = (rs.map fun r => blockBytes (partOf S r)).flatten
  chunks : c.chunks.length = rs.length
  span : ∀ k (h : k < rs.length), rs[k].1 < rs[k].2 ∧ rs[k].2 ≤ n
  sizes : ∀ k (h : k < c.chunks.length) (h' : k < rs.length), c.chunks[k].numBytes = (blockBytes (partOf S rs[k])).length ∧
    c.chunks[k].numBytes ≤ 4096
  logs : ∀ k (h : k < c.chunks.length) (h' : k < rs.length), if k + 1 = c.chunks.length then c.chunks[k].logNumValues = 0
    else 0 < c.chunks[k].logNumValues ∧ c.chunks[k].logNumValues < 16 ∧ rs[k].2 - rs[k].1 = 2 ^ c.chunks[k].logNumValues

theorem partOf_length {A : Type} (S : List A) (r : Nat × Nat) (h1 : r.1 ≤ r.2) (h2 : r.2 ≤ S.length) :
    (partOf S r).length = r.2 - r.1 := by
  unfold partOf; rw [List.length_take, List.length_drop]; omega

theorem narrow_spans (buf offs : List Nat) (h : OffsetsOk buf.length offs)
    (hs : ∀ s ∈ strings buf offs, s.length ≤ 2042) :
    ∀ a b, a < b → b ≤ a + 2 → b < offs.length → spanSize offs a b ≤ 4096 := by
  intro a b hab hb2 hb
  have hsl := strings_slice buf _ rfl offs h a b (by omega) hb
  have hm := offsetsOk_mono h (i := a) (j := b) (by omega) hb
  have hlen := congrArg List.length hsl
  rw [List.length_take, List.length_drop] at hlen
  have hsum : (((strings buf offs).drop a).take (b - a)).flatten.length ≤ 2042 * (b - a) := by
    have : ∀ (l : List (List Nat)), (∀ s ∈ l, s.length ≤ 2042) → l.flatten.length ≤ 2042 * l.length := by
      intro l
      induction l with
      | nil => intro _; simp
      | cons s l ih =>
        intro hl
        have h1 := hl s List.mem_cons_self
        have h2 := ih (fun x hx => hl x (List.mem_cons_of_mem _ hx))
        rw [List.flatten_cons, List.length_append, List.length_cons]; omega
    have h1 := this (((strings buf offs).drop a).take (b - a)) (fun s hx => hs s (List.mem_of_mem_drop (List.mem_of_mem_take hx)))
    have h2 : (((strings buf offs).drop a).take (b - a)).length ≤ b - a := by rw [List.length_take]; omega
    have h3 := Nat.mul_le_mul_left 2042 h2
    omega
  unfold spanSize
  have : 2042 * (b - a) ≤ 4084 := by omega
  omega

/-- Cutting succeeds for narrow strings. -/
theorem binaryCompress_ok (buf offs : List Nat) (h : OffsetsOk buf.length offs) (h1 : 1 < offs.length)
    (h2 : buf.length < 2 ^ 31) (h3 : offs.length < 2 ^ 28) (hs : ∀ s ∈ strings buf offs, s.length ≤ 2042) :
    ∃ c rs, binaryCompress buf offs = some c ∧ BinCut c (offs.length - 1) rs (strings buf offs) := by
  obtain ⟨rs, hrs, hch⟩ := cutLoop_ok offs (narrow_spans buf offs h hs) offs.length 0 (by omega) (by omega)
  have hSl := strings_length buf offs
  have hget := chain_get offs _ rs 0 hch
  have hpart : ∀ r ∈ rs, spanBytes buf offs r = blockBytes (partOf (strings buf offs) r) := by
    intro r hr
    obtain ⟨k, hk, hrk⟩ := List.getElem_of_mem hr
    have := hget k hk
    rw [hrk] at this
    exact spanBytes_eq buf offs h r.1 r.2 (by omega) (by omega)
  have hbl : ∀ k (hk : k < rs.length), (blockBytes (partOf (strings buf offs) rs[k])).length = paddedSize offs rs[k] := by
    intro k hk
    have hg := hget k hk
    rw [blockBytes_length, partOf_length _ _ (by omega) (by omega)]
    have hsl := congrArg List.length (strings_slice buf _ rfl offs h rs[k].1 rs[k].2 (by omega) (by omega))
    have hm := offsetsOk_mono h (i := rs[k].1) (j := rs[k].2) (by omega) (by omega)
    rw [List.length_take, List.length_drop] at hsl
    unfold paddedSize spanSize
    unfold partOf
    rw [hsl]
    congr 1
    omega
  refine ⟨⟨rs.flatMap (spanBytes buf offs), rs.map (spanChunk offs)⟩, rs, ?_, ?_⟩
  · unfold binaryCompress
    rw [if_pos ⟨h1, h2, h3⟩, hrs]
    rfl
  · refine ⟨hSl, ?_, chain_ne hch, ?_, by simp, ?_, ?_, ?_⟩
    · intro A T hT
      rw [← hT] at hch
      have := chain_flatten offs T rs 0 hch
      simpa using this
    · simp only [List.flatMap]
      congr 1
      exact List.map_congr_left hpart
    · intro k hk
      have := hget k hk
      exact ⟨this.1, this.2.1⟩
    · intro k hk hk'
      simp only [List.getElem_map, spanChunk]
      rw [hbl k hk']
      have := (hget k hk').2.2.1
      have hp : paddedSize offs rs[k] ≤ 4096 := by unfold paddedSize; omega
      omega
    · intro k hk hk'
      simp only [List.getElem_map, spanChunk, List.length_map]
      have hg := hget k hk'
      by_cases hl : k + 1 = rs.length
      · rw [if_pos hl, if_pos (hg.2.2.2.1 hl)]
      · rw [if_neg hl]
        obtain ⟨g1, j, g2, g3⟩ := hg.2.2.2.2 (by omega)
        rw [if_neg (by omega)]
        have hj : j < 16 := by
          have hsz := hg.2.2.1
          unfold spanSize at hsz
          rcases Nat.lt_or_ge j 16 with h | h
          · exact h
          · exfalso
            have := Nat.pow_le_pow_right (n := 2) (by omega) h
            omega
        rw [show rs[k].2 - rs[k].1 = 2 ^ j by omega, trailingZeros_pow j 64 (by omega)]
        exact ⟨g2, hj, rfl⟩

theorem getD_of_lt {A : Type} (l : List A) (k : Nat) (d : A) (h : k < l.length) : l.getD k d = l[k] := by
  rw [List.getD_eq_getElem?_getD, List.getElem?_eq_getElem h]; rfl

/-- A cut of compressed strings is a cut of the values they stand for. -/
theorem cut_of_binCut {V : Type} (codec : Codec V) (c : Compressed) (n : Nat) (rs : List (Nat × Nat)) (S : List (List Nat))
    (vals : List V) (h : BinCut c n rs S) (hn : vals.length = n)
    (hdec : ∀ r : Nat × Nat, r.1 < r.2 → r.2 ≤ n → (blockBytes (partOf S r)).length ≤ 4096 →
      codec.decompress (blockBytes (partOf S r)) (r.2 - r.1) = some (partOf vals r)) :
    Cut codec c vals (rs.map (partOf vals)) (rs.map fun r => blockBytes (partOf S r)) := by
  refine ⟨h.chain _ vals hn, by simpa using h.nonempty, h.data.symm, by rw [h.chunks, List.length_map], by simp, ?_, ?_, ?_⟩
  · intro k hk
    have hk' : k < rs.length := by rw [← h.chunks]; exact hk
    have := h.sizes k hk hk'
    rw [getD_of_lt _ _ _ (by simpa using hk'), List.getElem_map]
    exact ⟨this.1, by omega⟩
  · intro k hk
    have hk' : k < rs.length := by rw [← h.chunks]; exact hk
    have := h.logs k hk hk'
    rw [getD_of_lt _ _ _ (by simpa using hk'), List.getElem_map]
    have hs := h.span k hk'
    rw [partOf_length _ _ (by omega) (by omega)]
    exact this
  · intro k hk
    rw [List.length_map] at hk
    rw [getD_of_lt _ _ _ (by simpa using hk), getD_of_lt _ _ _ (by simpa using hk), List.getElem_map, List.getElem_map]
    have hs := h.span k hk
    rw [partOf_length _ _ (by omega) (by omega)]
    have hz := h.sizes k (by rw [h.chunks]; exact hk) hk
    exact hdec _ hs.1 hs.2 (by rw [← hz.1]; exact hz.2)

theorem partOf_ne {A : Type} (S : List A) (r : Nat × Nat) (h1 : r.1 < r.2) (h2 : r.2 ≤ S.length) : partOf S r ≠ [] := by
  intro h
  have := partOf_length S r (by omega) h2
  rw [h] at this
  simp at this
  omega

theorem offsetsFrom_vals_ok (vals : List (List Nat)) : OffsetsOk vals.flatten.length (offsetsFrom 0 vals) :=
  offsetsFrom_ok 0 vals _ (by omega)

/-- Strings stored as they are. -/
theorem binaryCodec_cut (vals : List (List Nat)) (hs : ∀ s ∈ vals, s.length ≤ 2042) (c : Compressed)
    (hc : binaryCodec.compress vals = some c) :
    ∃ rs, BinCut c vals.length rs vals ∧
      Cut binaryCodec c vals (rs.map (partOf vals)) (rs.map fun r => blockBytes (partOf vals r)) := by
  have hc' : binaryCompress vals.flatten (offsetsFrom 0 vals) = some c := hc
  have hS := strings_offsetsFrom_zero vals
  have hol := Fsst.length_offsetsFrom 0 vals
  by_cases hg : 1 < (offsetsFrom 0 vals).length ∧ vals.flatten.length < 2 ^ 31 ∧ (offsetsFrom 0 vals).length < 2 ^ 28
  · obtain ⟨c', rs, h1, h2⟩ := binaryCompress_ok vals.flatten (offsetsFrom 0 vals) (offsetsFrom_vals_ok vals) hg.1 hg.2.1 hg.2.2
      (by rw [hS]; exact hs)
    rw [hc'] at h1
    simp only [Option.some.injEq] at h1
    subst h1
    rw [hS, hol, Nat.add_sub_cancel] at h2
    refine ⟨rs, h2, cut_of_binCut binaryCodec c _ rs vals vals h2 rfl ?_⟩
    intro r hr1 hr2 hsz
    have hl := partOf_length vals r (by omega) hr2
    have := binaryDecompress_ok (partOf vals r) (partOf_ne vals r hr1 hr2) (by omega)
    rw [hl] at this
    show (binaryDecompress (blockBytes (partOf vals r)) (r.2 - r.1)).map _ = _
    rw [this]
    simp only [Option.map_some, strings_offsetsFrom_zero]
  · unfold binaryCompress at hc'
    rw [if_neg hg] at hc'
    exact absurd hc' (by simp)

theorem binaryCodec_ok : CodecOk binaryCodec (fun v => v.length ≤ 2042) := by
  intro vals c hv hc
  obtain ⟨rs, _, h⟩ := binaryCodec_cut vals hv c hc
  exact ⟨_, _, h⟩

/-! ### FSST -/

theorem codes_length {st : Fsst.Table} {cs s : List Nat} (h : Fsst.Codes st cs s) : cs.length ≤ 2 * s.length := by
  induction h with
  | nil => simp
  | sym hc hlo hhi hv _ ih =>
    rw [List.length_append, Fsst.Symbol.bytes, Fsst.length_leBytes, List.length_cons]
    omega
  | esc hb _ ih => simp only [List.length_cons] at ih ⊢; omega

theorem codesAt_offsetsOk {st : Fsst.Table} {bytes : List Nat} {a : Nat} {offs : List Nat} {ss : List (List Nat)}
    (h : Fsst.CodesAt st bytes a offs ss) : OffsetsOk bytes.length (a :: offs) := by
  induction h with
  | nil a ha => exact ha
  | cons hab hb hcs h _ ih => exact ⟨by omega, ih⟩

/-- Compressed strings are at most twice as long, and their offsets are in order. -/
theorem fsst_lengths (o : Fsst.Oracle) (buf offs : List Nat) (h : Fsst.ArrayOk buf offs) (h31 : 2 * buf.length < 2 ^ 31)
    (c : Fsst.Compressed) (hc : Fsst.compress o buf offs = .ok c) :
    OffsetsOk c.bytes.length c.offsets ∧ c.bytes.length ≤ 2 * buf.length ∧ c.offsets.length = offs.length ∧
      ∀ m, (∀ s ∈ strings buf offs, s.length ≤ m) → ∀ s ∈ strings c.bytes c.offsets, s.length ≤ 2 * m := by
  unfold Fsst.compress at hc
  by_cases hsmall : buf.length < Fsst.leastInput
  · rw [if_pos hsmall] at hc
    obtain ⟨tb, e, _⟩ := Fsst.export_ok (st := Fsst.Table.init) (by simp [Fsst.Table.init, Fsst.Table.clear]) false
    rw [e] at hc
    simp only [bind, Except.bind, Except.ok.injEq] at hc
    subst hc
    refine ⟨h.offsets, by simp only; omega, rfl, ?_⟩
    intro m hm s hs
    have := hm s hs
    omega
  · rw [if_neg hsmall] at hc
    rcases Fsst.build_ok o with e | ⟨st, e, hst, _⟩
    · rw [e] at hc; exact absurd hc (by simp [bind, Except.bind])
    · obtain ⟨tb, et, _⟩ := Fsst.export_ok hst.n true
      cases offs with
      | nil => exact absurd h.offsets (by simp [OffsetsOk])
      | cons a offs =>
        obtain ⟨fin, co, ec, hca, hfin⟩ := Fsst.compressBulk_ok hst buf h.bytes (2 * buf.length) offs a [] h.offsets (by simp; omega) h31
        simp only [List.nil_append, List.length_nil] at ec hca
        obtain ⟨hl, hcodes⟩ := Fsst.codes_of_strings hca
        rw [e] at hc
        simp only [bind, Except.bind, et, ec, Except.ok.injEq] at hc
        subst hc
        refine ⟨codesAt_offsetsOk hca, ?_, ?_, ?_⟩
        · simp only; omega
        · rw [strings_length, strings_length] at hl
          simp only [List.length_cons] at hl ⊢
          omega
        · intro m hm s hs
          obtain ⟨i, hi, rfl⟩ := List.getElem_of_mem hs
          have hi' : i < (strings buf (a :: offs)).length := by rw [← hl]; exact hi
          have h1 := codes_length (hcodes i hi')
          rw [getD_of_lt _ _ _ hi, getD_of_lt _ _ _ hi'] at h1
          have h2 := hm _ (List.getElem_mem hi')
          omega

theorem map_range_partOf (T : List (List Nat)) (r : Nat × Nat) (h1 : r.1 ≤ r.2) (h2 : r.2 ≤ T.length) :
    Fsst.rowsOf T (List.range' r.1 (r.2 - r.1)) = partOf T r := by
  unfold Fsst.rowsOf
  refine List.ext_getElem ?_ ?_
  · rw [List.length_map, List.length_range', partOf_length T r h1 h2]
  · intro i hi1 hi2
    rw [List.length_map, List.length_range'] at hi1
    rw [List.getElem_map, List.getElem_range', getD_of_lt _ _ _ (by omega)]
    simp only [partOf, List.getElem_take, List.getElem_drop, Nat.one_mul]

/-- Strings compressed with FSST. -/
theorem fsstCodec_cut (o : Fsst.Oracle) (table : List Nat) (vals : List (List Nat)) (hs : ∀ s ∈ vals, s.length ≤ 1021)
    (hb : ∀ s ∈ vals, ∀ b ∈ s, b < 256) (c : Compressed)
    (hc : (fsstCodec o table).compress vals = some c) :
    ∃ rs S, BinCut c vals.length rs S ∧
      Cut (fsstCodec o table) c vals (rs.map (partOf vals)) (rs.map fun r => blockBytes (partOf S r)) := by
  have hc : fsstCompress o table vals = some c := hc
  have h31 : 2 * vals.flatten.length < 2 ^ 31 := by
    unfold fsstCompress at hc
    split at hc
    · assumption
    · exact absurd hc (by simp)
  rw [fsstCompress, if_pos h31] at hc
  have hS := strings_offsetsFrom_zero vals
  have hol := Fsst.length_offsetsFrom 0 vals
  have hao : Fsst.ArrayOk vals.flatten (offsetsFrom 0 vals) := ⟨by
    intro b hbm
    obtain ⟨s, h1, h2⟩ := List.mem_flatten.mp hbm
    exact hb s h1 b h2, offsetsFrom_vals_ok vals⟩
  rcases Fsst.C84_fsst_round_trip o vals.flatten (offsetsFrom 0 vals) hao h31 with he | ⟨fc, he, hlen, hround⟩
  · rw [he] at hc
    exact absurd hc (by simp)
  · rw [he] at hc
    simp only at hc
    by_cases ht : fc.table = table
    · rw [if_pos ht] at hc
      obtain ⟨l1, l2, l3, l4⟩ := fsst_lengths o _ _ hao h31 fc he
      rw [hS] at hlen hround l4
      have hn1 : 1 < fc.offsets.length ∧ fc.bytes.length < 2 ^ 31 ∧ fc.offsets.length < 2 ^ 28 := by
        unfold binaryCompress at hc
        split at hc
        · assumption
        · exact absurd hc (by simp)
      obtain ⟨c', rs, h1, h2⟩ := binaryCompress_ok fc.bytes fc.offsets l1 hn1.1 hn1.2.1 hn1.2.2 (fun s h => by
        have := l4 1021 hs s h
        omega)
      rw [hc] at h1
      simp only [Option.some.injEq] at h1
      subst h1
      rw [l3, hol, Nat.add_sub_cancel] at h2
      refine ⟨rs, _, h2, cut_of_binCut _ c _ rs _ vals h2 rfl ?_⟩
      intro r hr1 hr2 hsz
      have hCl : (strings fc.bytes fc.offsets).length = vals.length := hlen
      have hl := partOf_length (strings fc.bytes fc.offsets) r (by omega) (by omega)
      have hd := binaryDecompress_ok _ (partOf_ne (strings fc.bytes fc.offsets) r hr1 (by omega)) (by omega)
      rw [hl] at hd
      have hbl := blockBytes_length (partOf (strings fc.bytes fc.offsets) r)
      rw [hl] at hbl
      have hpv := map_range_partOf vals r (by omega) hr2
      have hpc := map_range_partOf (strings fc.bytes fc.offsets) r (by omega) (by omega)
      have hrows := hround (List.range' r.1 (r.2 - r.1)) (fun i hi => by
          rw [List.mem_range'_1] at hi
          omega) (by
          rw [hpv]
          have hsub : (partOf vals r).flatten.length ≤ vals.flatten.length := by
            have h1 : (partOf vals r).flatten.length ≤ (vals.drop r.1).flatten.length := by
              unfold partOf
              conv => rhs; rw [← List.take_append_drop (r.2 - r.1) (vals.drop r.1), List.flatten_append, List.length_append]
              omega
            have h2 : (vals.drop r.1).flatten.length ≤ vals.flatten.length := by
              conv => rhs; rw [← List.take_append_drop r.1 vals, List.flatten_append, List.length_append]
              omega
            omega
          omega) (4 * 1024 * 8) 1024 (by rw [hpc]; omega) (by rw [List.length_range']; omega)
      rw [hpv, hpc, ht] at hrows
      show (fsstDecompress table (blockBytes (partOf (strings fc.bytes fc.offsets) r)) (r.2 - r.1)).map _ = _
      rw [fsstDecompress, hd]
      simp only [hrows, Option.map_some, strings_offsetsFrom_zero]
    · rw [if_neg ht] at hc
      exact absurd hc (by simp)

theorem fsstCodec_ok (o : Fsst.Oracle) (table : List Nat) :
    CodecOk (fsstCodec o table) (fun v => v.length ≤ 1021 ∧ ∀ b ∈ v, b < 256) := by
  intro vals c hv hc
  obtain ⟨rs, S, _, h⟩ := fsstCodec_cut o table vals (fun s hs => (hv s hs).1) (fun s hs => (hv s hs).2) c hc
  exact ⟨_, _, h⟩

/-- Pages of strings that were compressed can be written, if there are no empty or null lists. -/
theorem write_strings_total (codec : Codec (List Nat)) (r : Rows (List Nat)) (hok : ∀ t ∈ r.rows.flatten, SlotOk r t)
    (hvis : ∀ t ∈ r.rows.flatten, t.val.isSome = true) (c : Compressed)
    (hcomp : codec.compress (valsOf r.rows.flatten) = some c) (rs : List (Nat × Nat)) (S : List (List Nat))
    (hb : BinCut c (valsOf r.rows.flatten).length rs S)
    (hcut : Cut codec c (valsOf r.rows.flatten) (rs.map (partOf (valsOf r.rows.flatten))) (rs.map fun r => blockBytes (partOf S r))) :
    ∃ p, write codec r = some p := by
  refine write_total codec r hok hvis c hcomp _ _ hcut ?_ (Or.inr ?_)
  · intro k hk
    rw [List.length_map] at hk
    rw [getD_of_lt _ _ _ (by simpa using hk), getD_of_lt _ _ _ (by simpa using hk), List.getElem_map, List.getElem_map]
    have h1 := hb.span k hk
    have h2 := hb.sizes k (by rw [hb.chunks]; exact hk) hk
    have h3 := blockBytes_length (partOf S rs[k])
    rw [partOf_length _ _ (by omega) (by rw [hb.len]; omega)] at h3
    rw [partOf_length _ _ (by omega) (by omega)]
    omega
  · intro q hq
    obtain ⟨r', hr', rfl⟩ := List.mem_map.mp hq
    obtain ⟨k, hk, rfl⟩ := List.getElem_of_mem hr'
    have h1 := hb.span k hk
    exact partOf_ne _ _ h1.1 h1.2

end Verif.Mini
