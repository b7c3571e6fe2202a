import Verif.Fsst.LemmasFin
/-! What the encoder writes for a string. -/
namespace Verif.Fsst

/-- The codes stand for the bytes. -/
inductive Codes (st : Table) : List Nat → List Nat → Prop
  | nil : Codes st [] []
  | sym {c : Nat} {cs s : List Nat} (hc : c < st.n) (hlo : 1 ≤ (st.symbols c).len) (hhi : (st.symbols c).len ≤ 8)
      (hv : (st.symbols c).val < 256 ^ (st.symbols c).len) : Codes st cs s → Codes st (c :: cs) ((st.symbols c).bytes ++ s)
  | esc {b : Nat} {cs s : List Nat} (hb : b < 256) : Codes st cs s → Codes st (255 :: b :: cs) (b :: s)

theorem Codes.append {st : Table} {a b s t : List Nat} (h : Codes st a s) (h' : Codes st b t) : Codes st (a ++ b) (s ++ t) := by
  induction h with
  | nil => exact h'
  | sym hc hlo hhi hv _ ih => rw [List.append_assoc]; exact .sym hc hlo hhi hv ih
  | esc hb _ ih => exact .esc hb ih

theorem wordAt_lt {buf : List Nat} (h : ∀ b ∈ buf, b < 256) (p : Nat) : wordAt buf p < 2 ^ 64 := by
  have := leWord_lt ((buf.drop p).take 8) (fun b hb => h b (List.mem_of_mem_drop (List.mem_of_mem_take hb)))
  refine Nat.lt_of_lt_of_le this ?_
  rw [show (2 : Nat) ^ 64 = 256 ^ 8 by decide]
  exact Nat.pow_le_pow_right (by omega) (by rw [List.length_take]; omega)

/-- One chunk. -/
theorem encLoop_ok {st : Table} (hst : FinalOk st) {chunk rest : List Nat} (hb : ∀ b ∈ chunk, b < 256) (hr : ∀ b ∈ rest, b < 256)
    (hlen : chunk.length + 8 ≤ chunk.length + 1 + rest.length) (cap fuel p : Nat) (out : List Nat)
    (hp : p ≤ chunk.length) (hfuel : chunk.length - p ≤ fuel) (hcap : out.length + 2 * (chunk.length - p) ≤ cap) :
    ∃ cs, encLoop st (chunk ++ (st.terminator % 256) :: rest) chunk.length cap fuel p out = .ok (out ++ cs) ∧
      Codes st cs (chunk.drop p) ∧ cs.length ≤ 2 * (chunk.length - p) := by
  have hbuf : ∀ b ∈ chunk ++ (st.terminator % 256) :: rest, b < 256 := by
    intro b h
    rcases List.mem_append.1 h with h | h
    · exact hb b h
    · rcases List.mem_cons.1 h with h | h
      · omega
      · exact hr b h
  induction fuel generalizing p out with
  | zero =>
    have : p = chunk.length := by omega
    subst this
    refine ⟨[], ?_, by simp; exact .nil, by simp⟩
    simp [encLoop]
  | succ fuel ih =>
    by_cases hlt : p < chunk.length
    · unfold encLoop
      rw [if_pos hlt]
      simp only
      rw [if_pos (by omega)]
      generalize hbufdef : chunk ++ (st.terminator % 256) :: rest = buf at *
      have hbl : buf.length = chunk.length + 1 + rest.length := by rw [← hbufdef]; simp; omega
      have hdrop : chunk.drop p = (chunk[p]'hlt) :: chunk.drop (p + 1) := List.drop_eq_getElem_cons hlt
      have hw0 : wordAt buf p % 256 = chunk[p]'hlt := by
        have := leWord_take ((buf.drop p).take 8) 1 (fun b h => hbuf b (List.mem_of_mem_drop (List.mem_of_mem_take h)))
        rw [wordAt, show 256 = 256 ^ 1 by decide, this]
        have : buf.drop p = (chunk[p]'hlt) :: (buf.drop (p + 1)) := by
          rw [List.drop_eq_getElem_cons (by omega)]
          congr 1
          simp only [← hbufdef]
          rw [List.getElem_append_left hlt]
        rw [this]
        simp [leWord]
      rcases hst.lookup (wordAt buf p) (wordAt_lt hbuf p) with e | ⟨c, hc, hs, e, hv⟩
      · rw [e]
        simp only [show (511 + 4096) / 256 % 2 = 1 by decide, if_true, show (511 + 4096) % 256 = 255 by decide,
          show (511 + 4096) / 4096 = 1 by decide]
        obtain ⟨cs, e', hcs, hl⟩ := ih (p + 1) (out ++ [255, wordAt buf p % 256]) (by omega) (by omega) (by simp; omega)
        refine ⟨255 :: (wordAt buf p % 256) :: cs, ?_, ?_, by simp; omega⟩
        · rw [e']; simp
        · rw [hdrop, hw0]
          exact .esc (hb _ (List.getElem_mem _)) hcs
      · have lo := hs.lo
        have hi := hs.hi
        have hn := hst.n
        rw [e]
        rw [if_neg (by omega), show (c + 4096 * (st.symbols c).len) / 4096 = (st.symbols c).len by omega,
          show (c + 4096 * (st.symbols c).len) % 256 = c by omega]
        -- the bytes of the symbol are those at `p`
        have hbytes : (st.symbols c).bytes = (buf.drop p).take (st.symbols c).len := by
          rw [Symbol.bytes, hv, wordAt, leBytes_mod_leWord]
          · rw [List.take_take, Nat.min_eq_left hi]
          · exact fun b h => hbuf b (List.mem_of_mem_drop (List.mem_of_mem_take h))
          · rw [List.length_take, List.length_drop]; omega
        have hend : p + (st.symbols c).len ≤ chunk.length := by
          apply Classical.byContradiction
          intro hgt
          have h2 : 2 ≤ (st.symbols c).len := by omega
          apply hs.term h2
          rw [hbytes]
          rw [List.mem_take_iff_getElem]
          refine ⟨chunk.length - p, by rw [List.length_drop]; omega, ?_⟩
          rw [List.getElem_drop]
          simp only [← hbufdef]
          rw [List.getElem_append_right (by omega)]
          simp [show p + (chunk.length - p) - chunk.length = 0 by omega]
        have hbytes' : (st.symbols c).bytes = (chunk.drop p).take (st.symbols c).len := by
          rw [hbytes, ← hbufdef, List.drop_append_of_le_length (by omega), List.take_append_of_le_length (by rw [List.length_drop]; omega)]
        obtain ⟨cs, e', hcs, hl⟩ := ih (p + (st.symbols c).len) (out ++ [c]) (by omega) (by omega) (by simp; omega)
        refine ⟨c :: cs, ?_, ?_, by simp; omega⟩
        · rw [e']; simp
        · have : chunk.drop p = (st.symbols c).bytes ++ chunk.drop (p + (st.symbols c).len) := by
            rw [hbytes', ← List.drop_drop, List.take_append_drop]
          rw [this]
          exact .sym hc lo hi hs.val hcs
    · have : p = chunk.length := by omega
      subst this
      refine ⟨[], ?_, by simp; exact .nil, by simp⟩
      simp [encLoop]

theorem encString_ok {st : Table} (hst : FinalOk st) (cap fuel : Nat) (buf s out : List Nat) (hb : ∀ b ∈ s, b < 256)
    (hbuf : ∀ b ∈ buf, b < 256) (hl : buf.length = 520) (hfuel : s.length ≤ fuel) (hcap : out.length + 2 * s.length ≤ cap) :
    ∃ cs, encString st cap fuel buf s out = .ok (out ++ cs) ∧ Codes st cs s ∧ cs.length ≤ 2 * s.length := by
  induction fuel generalizing buf s out with
  | zero =>
    have : s = [] := List.length_eq_zero_iff.1 (by omega)
    subst this
    exact ⟨[], by simp [encString], .nil, by simp⟩
  | succ fuel ih =>
    unfold encString
    by_cases hs : s = []
    · rw [if_pos hs]; subst hs; exact ⟨[], by simp, .nil, by simp⟩
    · rw [if_neg hs]
      have hpos : 0 < s.length := List.length_pos_iff.2 hs
      have hcl : (s.take 511).length = min 511 s.length := List.length_take
      have hrest : ∀ b ∈ buf.drop ((s.take 511).length + 1), b < 256 := fun b h => hbuf b (List.mem_of_mem_drop h)
      have hchunk : ∀ b ∈ s.take 511, b < 256 := fun b h => hb b (List.mem_of_mem_take h)
      obtain ⟨cs, e, hcs, hlen⟩ := encLoop_ok hst hchunk hrest (by rw [List.length_drop]; omega) cap (s.take 511).length 0 out
        (by omega) (by omega) (by omega)
      simp only [e]
      have hbuf' : ∀ b ∈ s.take 511 ++ (st.terminator % 256) :: buf.drop ((s.take 511).length + 1), b < 256 := by
        intro b h
        rcases List.mem_append.1 h with h | h
        · exact hchunk b h
        · rcases List.mem_cons.1 h with h | h
          · omega
          · exact hrest b h
      have hd : (s.drop 511).length = s.length - 511 := List.length_drop
      obtain ⟨cs', e', hcs', hlen'⟩ := ih _ (s.drop 511) (out ++ cs) (fun b h => hb b (List.mem_of_mem_drop h)) hbuf'
        (by simp only [List.length_append, List.length_cons, List.length_drop]; omega) (by omega)
        (by rw [List.length_append]; omega)
      refine ⟨cs ++ cs', ?_, ?_, by rw [List.length_append]; omega⟩
      · show encString st cap fuel _ (s.drop 511) (out ++ cs) = _
        rw [e', List.append_assoc]
      · have := hcs.append hcs'
        rw [List.drop_zero, List.take_append_drop] at this
        exact this

end Verif.Fsst
