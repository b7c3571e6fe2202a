import Verif.Mini.LemmasFastlanes
import Verif.Mini.LemmasValue
/-!
# Mini-blocks of bit packed integers: the codec gives its values back
-/
namespace Verif.Mini

/-! ### Bytes and bits -/

theorem leBytes_length (n x : Nat) : (leBytes n x).length = n := by
  induction n generalizing x with
  | zero => rfl
  | succ n ih => rw [leBytes, List.length_cons, ih]

theorem ofLe_leBytes (n x : Nat) (h : x < 256 ^ n) : ofLe (leBytes n x) = x := by
  induction n generalizing x with
  | zero => simp at h; subst h; rfl
  | succ n ih =>
    rw [leBytes, ofLe, ih]
    · omega
    · rw [Nat.pow_succ] at h; omega

theorem leBytes_ofLe (bs : List Nat) (h : ∀ b ∈ bs, b < 256) : leBytes bs.length (ofLe bs) = bs := by
  induction bs with
  | nil => rfl
  | cons b bs ih =>
    have hb := h b List.mem_cons_self
    rw [List.length_cons, leBytes, ofLe, show (b + 256 * ofLe bs) % 256 = b by omega,
      show (b + 256 * ofLe bs) / 256 = ofLe bs by omega, ih (fun x hx => h x (List.mem_cons_of_mem _ hx))]

theorem ofLe_lt (bs : List Nat) (h : ∀ b ∈ bs, b < 256) : ofLe bs < 256 ^ bs.length := by
  induction bs with
  | nil => simp [ofLe]
  | cons b bs ih =>
    have hb := h b List.mem_cons_self
    have := ih (fun x hx => h x (List.mem_cons_of_mem _ hx))
    rw [ofLe, List.length_cons, Nat.pow_succ]
    omega

theorem lt_bitLen (x : Nat) : x < 2 ^ bitLen x := by
  unfold bitLen
  split
  · subst_vars; simp
  · exact Nat.lt_log2_self

theorem bitLen_le (x n : Nat) (h : x < 2 ^ n) : bitLen x ≤ n := by
  unfold bitLen
  split
  · omega
  · rename_i h0
    have := (Nat.log2_lt h0).mpr h
    omega

theorem foldl_or_le (l : List Nat) : ∀ (a : Nat), a ≤ l.foldl (· ||| ·) a ∧ ∀ x ∈ l, x ≤ l.foldl (· ||| ·) a := by
  induction l with
  | nil => intro a; exact ⟨Nat.le_refl _, by simp⟩
  | cons y l ih =>
    intro a
    obtain ⟨h1, h2⟩ := ih (a ||| y)
    rw [List.foldl_cons]
    have h3 : a ≤ a ||| y := Nat.left_le_or
    have h4 : y ≤ a ||| y := Nat.right_le_or
    refine ⟨by omega, ?_⟩
    intro x hx
    rcases List.mem_cons.mp hx with rfl | hx
    · omega
    · exact h2 x hx

theorem foldl_or_lt (n : Nat) (l : List Nat) : ∀ (a : Nat), a < 2 ^ n → (∀ x ∈ l, x < 2 ^ n) → l.foldl (· ||| ·) a < 2 ^ n := by
  induction l with
  | nil => intro a h _; exact h
  | cons y l ih =>
    intro a ha h
    rw [List.foldl_cons]
    exact ih _ (Nat.or_lt_two_pow ha (h y List.mem_cons_self)) (fun x hx => h x (List.mem_cons_of_mem _ hx))

theorem lt_bitWidth (chunk : List Nat) (x : Nat) (hx : x ∈ chunk) : x < 2 ^ bitWidth chunk :=
  Nat.lt_of_le_of_lt ((foldl_or_le chunk 0).2 x hx) (lt_bitLen _)

theorem bitWidth_le (chunk : List Nat) (T : Nat) (h : ∀ x ∈ chunk, x < 2 ^ T) : bitWidth chunk ≤ T :=
  bitLen_le _ _ (foldl_or_lt T chunk 0 (Nat.two_pow_pos T) h)

/-! ### Chunks -/

theorem chunks1024_flatten {A : Type} : ∀ (fuel : Nat) (l : List A), l.length ≤ fuel → (chunks1024 fuel l).flatten = l := by
  intro fuel
  induction fuel with
  | zero => intro l h; rw [List.length_eq_zero_iff.mp (Nat.le_zero.mp h)]; rfl
  | succ fuel ih =>
    intro l h
    rw [chunks1024]
    cases hl : l.isEmpty with
    | true => rw [List.isEmpty_iff] at hl; subst hl; rfl
    | false =>
      have : l ≠ [] := by intro h0; subst h0; simp at hl
      have hp := List.length_pos_iff.mpr this
      simp only [Bool.false_eq_true, if_false, List.flatten_cons]
      rw [ih _ (by rw [List.length_drop]; omega), List.take_append_drop]

theorem chunks1024_map {A B : Type} (f : A → B) : ∀ (fuel : Nat) (l : List A),
    chunks1024 fuel (l.map f) = (chunks1024 fuel l).map (List.map f) := by
  intro fuel
  induction fuel with
  | zero => intro l; rfl
  | succ fuel ih =>
    intro l
    rw [chunks1024, chunks1024, List.isEmpty_map]
    cases l.isEmpty with
    | true => rfl
    | false =>
      simp only [Bool.false_eq_true, if_false, List.map_cons]
      rw [← ih, List.map_take, List.map_drop]

theorem chunks1024_get {A : Type} : ∀ (fuel : Nat) (l : List A), l.length ≤ fuel →
    ∀ k (hk : k < (chunks1024 fuel l).length), (chunks1024 fuel l)[k] ≠ [] ∧ (chunks1024 fuel l)[k].length ≤ 1024 ∧
      (k + 1 < (chunks1024 fuel l).length → (chunks1024 fuel l)[k].length = 1024) := by
  intro fuel
  induction fuel with
  | zero => intro l _ k hk; exact absurd hk (by simp [chunks1024])
  | succ fuel ih =>
    intro l h k hk
    cases hl : l.isEmpty with
    | true =>
      have h0 : chunks1024 (fuel + 1) l = [] := by rw [chunks1024, hl]; rfl
      rw [h0] at hk; exact absurd hk (by simp)
    | false =>
      have h0 : chunks1024 (fuel + 1) l = l.take 1024 :: chunks1024 fuel (l.drop 1024) := by rw [chunks1024, hl]; rfl
      have hne : l ≠ [] := by intro h0; subst h0; simp at hl
      have hp := List.length_pos_iff.mpr hne
      simp only [h0] at hk ⊢
      cases k with
      | zero =>
        simp only [List.getElem_cons_zero, List.length_cons]
        refine ⟨?_, by rw [List.length_take]; omega, ?_⟩
        · intro hc
          have := congrArg List.length hc
          rw [List.length_take, List.length_nil] at this
          omega
        · intro h1
          rw [List.length_take]
          have h2 : l.drop 1024 ≠ [] := by
            intro hc
            rw [hc] at h1
            cases fuel <;> simp [chunks1024] at h1
          have := List.length_pos_iff.mpr h2
          rw [List.length_drop] at this
          omega
      | succ k =>
        have := ih (l.drop 1024) (by rw [List.length_drop]; omega) k (by simpa using hk)
        simpa using this

theorem packChunks_some (T : Nat) : ∀ (cs ps : List (List Nat)), packChunks T cs = some ps →
    ps.length = cs.length ∧ ∀ k (h1 : k < cs.length) (h2 : k < ps.length), packChunk T cs[k] = some ps[k] := by
  intro cs
  induction cs with
  | nil => intro ps h; rw [packChunks] at h; simp at h; subst h; exact ⟨rfl, by simp⟩
  | cons c cs ih =>
    intro ps h
    rw [packChunks] at h
    cases h1 : packChunk T c with
    | none => rw [h1] at h; simp at h
    | some p =>
      cases h2 : packChunks T cs with
      | none => rw [h1, h2] at h; simp at h
      | some ps' =>
        rw [h1, h2] at h
        simp only [Option.some.injEq] at h
        subst h
        obtain ⟨h3, h4⟩ := ih ps' h2
        refine ⟨by simp [h3], ?_⟩
        intro k hk1 hk2
        cases k with
        | zero => exact h1
        | succ k => simpa using h4 k (by simpa using hk1) (by simpa using hk2)

theorem packChunks_total (T : Nat) : ∀ (cs : List (List Nat)), (∀ c ∈ cs, ∃ p, packChunk T c = some p) →
    ∃ ps, packChunks T cs = some ps := by
  intro cs
  induction cs with
  | nil => intro _; exact ⟨[], rfl⟩
  | cons c cs ih =>
    intro h
    obtain ⟨p, hp⟩ := h c List.mem_cons_self
    obtain ⟨ps, hps⟩ := ih (fun x hx => h x (List.mem_cons_of_mem _ hx))
    exact ⟨p :: ps, by rw [packChunks, hp, hps]⟩

theorem packInfo_length (bpv : Nat) : ∀ ps, (packInfo bpv ps).length = ps.length := by
  intro ps
  induction ps with
  | nil => rfl
  | cons p ps ih =>
    cases ps with
    | nil => rfl
    | cons q ps => simp only [packInfo, List.length_cons] at ih ⊢; rw [ih]

theorem packInfo_get (bpv : Nat) : ∀ (ps : List (List Nat)) (k : Nat) (h1 : k < (packInfo bpv ps).length) (h2 : k < ps.length),
    (packInfo bpv ps)[k] = ⟨ps[k].length * bpv % 65536, if k + 1 = ps.length then 0 else 10⟩ := by
  intro ps
  induction ps with
  | nil => intro k _ h; exact absurd h (by simp)
  | cons p ps ih =>
    intro k h1 h2
    cases ps with
    | nil =>
      have : k = 0 := by simp at h2; omega
      subst this; rfl
    | cons q ps =>
      cases k with
      | zero => simp [packInfo]
      | succ k =>
        have hl := packInfo_length bpv (q :: ps)
        have h2' : k < (q :: ps).length := by simpa using h2
        have := ih k (by rw [hl]; exact h2') h2'
        simp only [packInfo, List.getElem_cons_succ]
        rw [this]
        simp

/-! ### One chunk -/

theorem width_word {bpv : Nat} (h : bpv = 1 ∨ bpv = 2 ∨ bpv = 4 ∨ bpv = 8) :
    Word (8 * bpv) ∧ bpv * lanes (8 * bpv) = 128 ∧ 256 ^ bpv = 2 ^ (8 * bpv) := by
  refine ⟨?_, ?_, ?_⟩
  · unfold Word; omega
  · rcases h with rfl | rfl | rfl | rfl <;> decide
  · rw [Nat.pow_mul]

theorem laneWord_lt (T W : Nat) (input : List Nat) (lane k : Nat) (h : ∀ x ∈ input, x < 2 ^ T) :
    laneWord T W input lane k < 2 ^ T := by
  unfold laneWord
  split
  · rw [List.getD_eq_getElem?_getD]
    cases hg : input[flIndex k lane]? with
    | none => simpa using Nat.two_pow_pos T
    | some x => simpa using h x (List.mem_of_getElem? hg)
  · exact Nat.mod_lt _ (Nat.two_pow_pos T)

/-- The words of a packed chunk fit their type. -/
theorem pack_lt {T : Nat} (hT : Word T) (W : Nat) (hW0 : 0 < W) (hW : W ≤ T) (input : List Nat)
    (h : ∀ x ∈ input, x < 2 ^ T) (packed : List Nat) (hp : pack T W input = some packed) : ∀ x ∈ packed, x < 2 ^ T := by
  obtain ⟨packed', h1, h2, h3⟩ := pack_eq hT W hW0 hW input
  rw [hp] at h1
  simp only [Option.some.injEq] at h1
  subst h1
  obtain ⟨_, l1, _⟩ := word_lanes hT
  intro x hx
  obtain ⟨i, hi, rfl⟩ := List.getElem_of_mem hx
  have hk : i / lanes T < W := (Nat.div_lt_iff_lt_mul l1).mpr (by rw [Nat.mul_comm, ← h2]; exact hi)
  have hl : i % lanes T < lanes T := Nat.mod_lt _ l1
  have := h3 (i % lanes T) (i / lanes T) hl hk
  rw [Nat.div_add_mod] at this
  rw [List.getD_eq_getElem?_getD, List.getElem?_eq_getElem hi] at this
  simp only [Option.getD_some] at this
  rw [this]
  exact laneWord_lt _ _ _ _ _ h

theorem flatMap_leBytes_length (bpv : Nat) (l : List Nat) : ((l.map (leBytes bpv)).flatten).length = l.length * bpv := by
  induction l with
  | nil => simp
  | cons x l ih => rw [List.map_cons, List.flatten_cons, List.length_append, ih, leBytes_length, List.length_cons, Nat.succ_mul]; omega

/-- A chunk of values comes back from its bytes. -/
theorem chunk_round_trip {bpv : Nat} (hb : bpv = 1 ∨ bpv = 2 ∨ bpv = 4 ∨ bpv = 8) (part : List (List Nat))
    (hlen : part.length ≤ 1024) (hw : ∀ v ∈ part, v.length = bpv) (hbytes : ∀ v ∈ part, ∀ b ∈ v, b < 256)
    (hz : bitWidth (part.map ofLe) ≠ 0) :
    ∃ p, packChunk (8 * bpv) (part.map ofLe) = some p ∧ p.length * bpv ≤ 8200 ∧
      bitpackDecompress bpv ((p.map (leBytes bpv)).flatten) part.length = some part := by
  obtain ⟨hT, hl, hpow⟩ := width_word hb
  have hlt : ∀ x ∈ part.map ofLe, x < 2 ^ (8 * bpv) := by
    intro x hx
    obtain ⟨v, hv, rfl⟩ := List.mem_map.mp hx
    have := ofLe_lt v (hbytes v hv)
    rw [hw v hv, hpow] at this
    exact this
  have hW := bitWidth_le _ _ hlt
  have hWlt := lt_bitWidth (part.map ofLe)
  generalize hWd : bitWidth (part.map ofLe) = W at *
  have hin : ∀ n, ∀ x ∈ part.map ofLe ++ List.replicate (1024 - (part.map ofLe).length) 0, x < 2 ^ n ∨ x ∈ part.map ofLe := by
    intro n x hx
    rcases List.mem_append.mp hx with h | h
    · exact Or.inr h
    · left; rw [List.eq_of_mem_replicate h]; exact Nat.two_pow_pos n
  have hilen : (part.map ofLe ++ List.replicate (1024 - (part.map ofLe).length) 0).length = 1024 := by
    rw [List.length_append, List.length_replicate, List.length_map]; omega
  have hinT : ∀ x ∈ part.map ofLe ++ List.replicate (1024 - (part.map ofLe).length) 0, x < 2 ^ (8 * bpv) := fun x hx =>
    (hin (8 * bpv) x hx).elim id (hlt x)
  obtain ⟨packed, h1, h2, h3⟩ := unpack_pack_words hT W (by omega) hW _ hilen (fun x hx => (hin W x hx).elim id (hWlt x))
  have hpl := pack_lt hT W (by omega) hW _ hinT packed h1
  have hsz : packed.length * bpv = 128 * W := by rw [h2, ← hl, Nat.mul_comm, Nat.mul_assoc]
  refine ⟨W :: packed, ?_, ?_, ?_⟩
  · rw [packChunk, hWd, h1]; rfl
  · rw [List.length_cons, Nat.succ_mul]; omega
  · have hWb : ofLe (leBytes bpv W) = W := ofLe_leBytes bpv W (by
      have h4 : 256 ^ 1 ≤ 256 ^ bpv := Nat.pow_le_pow_right (by omega) (by omega)
      rw [Nat.pow_one] at h4
      omega)
    have hrl := flatMap_leBytes_length bpv packed
    rw [List.map_cons, List.flatten_cons, bitpackDecompress]
    rw [if_pos ⟨by rw [List.length_append, leBytes_length, hrl]; omega, hlen, hb⟩]
    rw [List.take_left' (leBytes_length bpv W), List.drop_left' (leBytes_length bpv W), hWb]
    dsimp only
    rw [hrl, hsz]
    rw [if_pos ⟨by rw [← hsz, Nat.mul_mod_left], by omega⟩]
    have hcast : castWords bpv (packed.map (leBytes bpv)).flatten = packed := by
      unfold castWords
      rw [hrl, Nat.mul_div_cancel _ (by omega)]
      have := cutValues_ok bpv (packed.map (leBytes bpv)) (by
        intro v hv
        obtain ⟨x, _, rfl⟩ := List.mem_map.mp hv
        exact leBytes_length bpv x)
      rw [List.length_map] at this
      rw [this, List.map_map]
      conv => rhs; rw [← List.map_id packed]
      apply List.map_congr_left
      intro x hx
      exact ofLe_leBytes bpv x (by rw [hpow]; exact hpl x hx)
    rw [hcast, h3]
    simp only [Option.map_some]
    rw [List.take_left' (List.length_map ..), List.map_map]
    congr 1
    conv => rhs; rw [← List.map_id part]
    apply List.map_congr_left
    intro v hv
    have := leBytes_ofLe v (hbytes v hv)
    rw [hw v hv] at this
    exact this

/-! ### The codec -/

/-- The values as the encoder gets them. -/
def IntOk (bpv : Nat) (v : List Nat) : Prop := v.length = bpv ∧ ∀ b ∈ v, b < 256

theorem bitpack_cut (bpv : Nat) (vals : List (List Nat)) (hP : ∀ v ∈ vals, IntOk bpv v) (c : Compressed)
    (hc : (bitpackCodec bpv).compress vals = some c) :
    ∃ ps : List (List Nat), Cut (bitpackCodec bpv) c vals (chunks1024 vals.length vals) (ps.map fun p => (p.map (leBytes bpv)).flatten) ∧
      (∀ p ∈ ps, p.length * bpv ≤ 8200) ∧ ps.length = (chunks1024 vals.length vals).length := by
  have hc : bitpackCompress bpv vals = some c := hc
  unfold bitpackCompress at hc
  by_cases hg : (bpv = 1 ∨ bpv = 2 ∨ bpv = 4 ∨ bpv = 8) ∧ vals ≠ []
  · rw [if_pos hg, chunks1024_map] at hc
    obtain ⟨hb, hne⟩ := hg
    have hfl := chunks1024_flatten vals.length vals (Nat.le_refl _)
    have hget := chunks1024_get vals.length vals (Nat.le_refl _)
    have hin : ∀ q ∈ chunks1024 vals.length vals, ∀ v ∈ q, IntOk bpv v := by
      intro q hq v hv
      apply hP
      rw [← hfl]
      exact List.mem_flatten.mpr ⟨q, hq, hv⟩
    generalize hcs : chunks1024 vals.length vals = cs at *
    cases hps : packChunks (8 * bpv) (cs.map (List.map ofLe)) with
    | none => rw [hps] at hc; simp at hc
    | some ps =>
      rw [hps] at hc
      simp only [Option.map_some, Option.some.injEq] at hc
      subst hc
      obtain ⟨p1, p2⟩ := packChunks_some _ _ _ hps
      rw [List.length_map] at p1
      have hchunk : ∀ k (h1 : k < cs.length) (h2 : k < ps.length), ps[k].length * bpv ≤ 8200 ∧
          bitpackDecompress bpv ((ps[k].map (leBytes bpv)).flatten) cs[k].length = some cs[k] := by
        intro k h1 h2
        have hpk := p2 k (by rw [List.length_map]; exact h1) h2
        rw [List.getElem_map] at hpk
        have hmem := List.getElem_mem h1
        have hz : bitWidth (cs[k].map ofLe) ≠ 0 := by
          intro h0
          rw [packChunk, h0, pack, if_neg (by omega)] at hpk
          simp at hpk
        obtain ⟨p, e1, e2, e3⟩ := chunk_round_trip hb cs[k] (hget k h1).2.1 (fun v hv => (hin _ hmem v hv).1)
          (fun v hv => (hin _ hmem v hv).2) hz
        rw [hpk] at e1
        simp only [Option.some.injEq] at e1
        subst e1
        exact ⟨e2, e3⟩
      have hcne : cs ≠ [] := by
        intro h0
        rw [h0] at hfl
        exact hne hfl.symm
      refine ⟨ps, ⟨hfl, hcne, ?_, ?_, ?_, ?_, ?_, ?_⟩, ?_, p1⟩
      · show _ = (ps.flatten.map (leBytes bpv)).flatten
        rw [List.map_flatten, List.flatten_flatten, List.map_map]
        rfl
      · show (packInfo bpv ps).length = _
        rw [packInfo_length, p1]
      · rw [List.length_map, p1]
      · intro k hk
        have hk' : k < ps.length := by rw [← packInfo_length bpv ps]; exact hk
        have hkc : k < cs.length := by omega
        have h3 := (hchunk k hkc hk').1
        show (packInfo bpv ps)[k].numBytes = _ ∧ (packInfo bpv ps)[k].numBytes < _
        rw [packInfo_get bpv ps k hk hk', List.getD_eq_getElem?_getD, List.getElem?_map, List.getElem?_eq_getElem hk']
        simp only [Option.map_some, Option.getD_some, flatMap_leBytes_length]
        omega
      · intro k hk
        have hk' : k < ps.length := by rw [← packInfo_length bpv ps]; exact hk
        have hkc : k < cs.length := by omega
        show if k + 1 = (packInfo bpv ps).length then (packInfo bpv ps)[k].logNumValues = 0 else
          0 < (packInfo bpv ps)[k].logNumValues ∧ (packInfo bpv ps)[k].logNumValues < 16 ∧
            _ = 2 ^ (packInfo bpv ps)[k].logNumValues
        rw [packInfo_get bpv ps k hk hk', packInfo_length]
        simp only
        by_cases hl : k + 1 = ps.length
        · rw [if_pos hl, if_pos hl]
        · rw [if_neg hl, if_neg hl]
          refine ⟨by omega, by omega, ?_⟩
          rw [List.getD_eq_getElem?_getD, List.getElem?_eq_getElem hkc, Option.getD_some]
          rw [(hget k hkc).2.2 (by omega)]
      · intro k hk
        have hk' : k < ps.length := by omega
        have := (hchunk k hk hk').2
        rw [List.getD_eq_getElem?_getD, List.getD_eq_getElem?_getD, List.getElem?_map, List.getElem?_eq_getElem hk,
          List.getElem?_eq_getElem hk']
        exact this
      · intro p hp
        obtain ⟨k, hk, rfl⟩ := List.getElem_of_mem hp
        exact (hchunk k (by omega) hk).1
  · rw [if_neg hg] at hc; exact absurd hc (by simp)

theorem bitpackCodec_ok (bpv : Nat) : CodecOk (bitpackCodec bpv) (IntOk bpv) := by
  intro vals c hP hc
  obtain ⟨ps, h, _⟩ := bitpack_cut bpv vals hP c hc
  exact ⟨_, _, h⟩

/-- Values that have no chunk of zeros can be packed. -/
theorem bitpack_total (bpv : Nat) (hb : bpv = 1 ∨ bpv = 2 ∨ bpv = 4 ∨ bpv = 8) (vals : List (List Nat))
    (hP : ∀ v ∈ vals, IntOk bpv v) (hne : vals ≠ [])
    (hz : ∀ chunk ∈ chunks1024 vals.length (vals.map ofLe), bitWidth chunk ≠ 0) :
    ∃ c, (bitpackCodec bpv).compress vals = some c := by
  have hfl := chunks1024_flatten vals.length vals (Nat.le_refl _)
  have hget := chunks1024_get vals.length vals (Nat.le_refl _)
  have : ∃ ps, packChunks (8 * bpv) (chunks1024 vals.length (vals.map ofLe)) = some ps := by
    apply packChunks_total
    intro q hq
    have hzq := hz q hq
    rw [chunks1024_map] at hq
    obtain ⟨part, hpart, rfl⟩ := List.mem_map.mp hq
    obtain ⟨k, hk, hpk⟩ := List.getElem_of_mem hpart
    have hin : ∀ v ∈ part, IntOk bpv v := by
      intro v hv
      apply hP
      rw [← hfl]
      exact List.mem_flatten.mpr ⟨part, hpart, hv⟩
    have hlen := (hget k hk).2.1
    rw [hpk] at hlen
    obtain ⟨p, h1, _⟩ := chunk_round_trip hb part hlen (fun v hv => (hin v hv).1) (fun v hv => (hin v hv).2) hzq
    exact ⟨p, h1⟩
  obtain ⟨ps, hps⟩ := this
  exact ⟨_, by show bitpackCompress bpv vals = _; rw [bitpackCompress, if_pos ⟨hb, hne⟩, hps]; rfl⟩

/-- Pages of packed integers can be written, if there are no empty or null lists. -/
theorem write_bitpack_total (bpv : Nat) (r : Rows (List Nat)) (hok : ∀ t ∈ r.rows.flatten, SlotOk r t)
    (hvis : ∀ t ∈ r.rows.flatten, t.val.isSome = true) (hP : ∀ v ∈ valsOf r.rows.flatten, IntOk bpv v) (c : Compressed)
    (hcomp : (bitpackCodec bpv).compress (valsOf r.rows.flatten) = some c) :
    ∃ p, write (bitpackCodec bpv) r = some p := by
  obtain ⟨ps, hcut, hsz, hlen⟩ := bitpack_cut bpv _ hP c hcomp
  have hget := chunks1024_get (valsOf r.rows.flatten).length (valsOf r.rows.flatten) (Nat.le_refl _)
  refine write_total (bitpackCodec bpv) r hok hvis c hcomp _ _ hcut ?_ (Or.inr ?_)
  · intro k hk
    have hk' : k < ps.length := by rw [hlen]; exact hk
    have h1 := (hget k hk).2.1
    have h2 := hsz _ (List.getElem_mem hk')
    rw [List.getD_eq_getElem?_getD, List.getD_eq_getElem?_getD, List.getElem?_map, List.getElem?_eq_getElem hk,
      List.getElem?_eq_getElem hk']
    simp only [Option.map_some, Option.getD_some, flatMap_leBytes_length]
    omega
  · intro q hq
    obtain ⟨k, hk, rfl⟩ := List.getElem_of_mem hq
    exact (hget k hk).1

end Verif.Mini
