import Verif.Fsst.LemmasEnc
/-! The decoder reads the codes back. -/
namespace Verif.Fsst

theorem escByte_zero : ∀ b : Nat, b < 256 → (escByte b = 0 ↔ b ≠ 255) := by decide +kernel

/-- The decoder knows the symbols of the table. -/
def DecOk (st : Table) (d : Decoder) : Prop :=
  ∀ c, c < st.n → (st.symbols c).val < 2 ^ 64 → (st.symbols c).len ≤ 8 →
    d.symbols c = (st.symbols c).val ∧ d.lens c = (st.symbols c).len

theorem putSym_ok {st : Table} {d : Decoder} (hd : DecOk st d) {c cap : Nat} {out : List Nat} (hc : c < st.n)
    (hhi : (st.symbols c).len ≤ 8) (hv : (st.symbols c).val < 256 ^ (st.symbols c).len) (hcap : out.length + 8 ≤ cap) :
    putSym d cap c out = .ok (out ++ (st.symbols c).bytes) := by
  have hv64 : (st.symbols c).val < 2 ^ 64 := by
    refine Nat.lt_of_lt_of_le hv ?_
    rw [show (2 : Nat) ^ 64 = 256 ^ 8 by decide]
    exact Nat.pow_le_pow_right (by omega) hhi
  obtain ⟨e1, e2⟩ := hd c hc hv64 hhi
  unfold putSym
  rw [if_pos hcap, e1, e2, take_leBytes, Nat.min_eq_left hhi]
  rfl

theorem putByte_ok {cap b : Nat} {out : List Nat} (h : out.length < cap) : putByte cap b out = .ok (out ++ [b]) := if_pos h

theorem byteAt_ok {bytes cs post : List Nat} {p : Nat} (h : bytes.drop p = cs ++ post) (i : Nat) (hi : i < cs.length) :
    byteAt bytes (p + i) = .ok (cs[i]'hi) := by
  have : bytes[p + i]? = some (cs[i]'hi) := by
    rw [← List.getElem?_drop, h, List.getElem?_append_left hi, List.getElem?_eq_getElem hi]
  simp [byteAt, this]

theorem byteAt_zero {bytes post : List Nat} {p b : Nat} {cs : List Nat} (h : bytes.drop p = (b :: cs) ++ post) :
    byteAt bytes p = .ok b := by
  have := byteAt_ok h 0 (by simp)
  exact this

theorem drop_next {bytes post : List Nat} {p b : Nat} {cs : List Nat} (h : bytes.drop p = (b :: cs) ++ post) :
    bytes.drop (p + 1) = cs ++ post := by
  rw [← List.drop_drop, h]; rfl

/-- The codes before the first escape of a block. -/
theorem putSyms_ok {st : Table} (hn : st.n ≤ 255) {d : Decoder} (hd : DecOk st d) {bytes : List Nat} (cap m : Nat)
    {cs s post : List Nat} (hcs : Codes st cs s) (p : Nat) (out : List Nat) (hb : bytes.drop p = cs ++ post) (hm : m ≤ cs.length)
    (hcap : out.length + 8 * cs.length ≤ cap) :
    ∃ s1 s2, s = s1 ++ s2 ∧ putSyms d bytes cap (firstEsc (cs.take m)) p out = .ok (out ++ s1) ∧
      Codes st (cs.drop (firstEsc (cs.take m))) s2 ∧ firstEsc (cs.take m) ≤ m ∧ s1.length ≤ 8 * firstEsc (cs.take m) ∧
      (firstEsc (cs.take m) < m → ∃ b cs', cs.drop (firstEsc (cs.take m)) = 255 :: b :: cs') := by
  induction hcs generalizing m p out with
  | nil =>
    have : m = 0 := by simpa using hm
    subst this
    exact ⟨[], [], rfl, by simp [firstEsc, putSyms], by simp [firstEsc]; exact .nil, by simp [firstEsc], by simp, by simp [firstEsc]⟩
  | @sym c cs s hc hlo hhi hv hcs ih =>
    cases m with
    | zero => exact ⟨[], _, rfl, by simp [firstEsc, putSyms], by simp [firstEsc]; exact .sym hc hlo hhi hv hcs, by simp [firstEsc], by simp, by simp [firstEsc]⟩
    | succ m =>
      have e : firstEsc ((c :: cs).take (m + 1)) = firstEsc (cs.take m) + 1 := by
        rw [List.take_succ_cons, firstEsc, if_pos ((escByte_zero c (by omega)).2 (by omega))]
      simp only [List.length_cons] at hm hcap
      have hbl : (st.symbols c).bytes.length = (st.symbols c).len := length_leBytes _ _
      obtain ⟨s1, s2, h1, h2, h3, h4, h5, h6⟩ := ih m (p + 1) (out ++ (st.symbols c).bytes) (drop_next hb) (by omega)
        (by rw [List.length_append]; omega)
      rw [e]
      refine ⟨(st.symbols c).bytes ++ s1, s2, by rw [h1, List.append_assoc], ?_, by simpa using h3, by omega,
        by rw [List.length_append]; omega, fun hlt => ?_⟩
      · rw [putSyms, byteAt_zero hb]
        show (do let out' ← putSym d cap c out; putSyms d bytes cap _ (p + 1) out') = _
        rw [putSym_ok hd hc hhi hv (by omega)]
        show putSyms d bytes cap _ (p + 1) _ = _
        rw [h2, List.append_assoc]
      · obtain ⟨b, cs', hx⟩ := h6 (by omega)
        exact ⟨b, cs', by simpa using hx⟩
  | @esc b cs s hb' hcs ih =>
    cases m with
    | zero => exact ⟨[], _, rfl, by simp [firstEsc, putSyms], by simp [firstEsc]; exact .esc hb' hcs, by simp [firstEsc], by simp, by simp [firstEsc]⟩
    | succ m =>
      have e : firstEsc ((255 :: b :: cs).take (m + 1)) = 0 := by
        rw [List.take_succ_cons, firstEsc, if_neg (by decide)]
      rw [e]
      exact ⟨[], b :: s, rfl, by simp [putSyms], by simp; exact .esc hb' hcs, by omega, by simp, fun _ => ⟨b, cs, rfl⟩⟩

theorem decTail_ok {st : Table} (hn : st.n ≤ 255) {d : Decoder} (hd : DecOk st d) {bytes : List Nat} (cap : Nat)
    {cs s post : List Nat} (hcs : Codes st cs s) (p : Nat) (out : List Nat) (hb : bytes.drop p = cs ++ post) (h3 : cs.length < 4)
    (hcap : out.length + 8 * cs.length ≤ cap) :
    decTail d bytes (p + cs.length) cap p out = .ok (out ++ s) := by
  unfold decTail
  cases hcs with
  | nil =>
    rw [if_neg (by simp)]
    simp only [bind, Except.bind]
    rw [if_neg (by simp)]
    simp
  | @sym c1 cs s hc1 hlo1 hhi1 hv1 hcs =>
    have l1 : (st.symbols c1).bytes.length ≤ 8 := by rw [Symbol.bytes, length_leBytes]; exact hhi1
    simp only [List.length_cons] at h3 hcap
    have b0 := byteAt_zero hb
    have hb1 := drop_next hb
    cases hcs with
    | nil =>
      rw [if_neg (by simp)]
      simp only [bind, Except.bind]
      rw [if_pos (by simp), b0]
      simp only
      rw [putSym_ok hd hc1 hhi1 hv1 (by omega)]
      simp
    | @sym c2 cs s hc2 hlo2 hhi2 hv2 hcs =>
      have l2 : (st.symbols c2).bytes.length ≤ 8 := by rw [Symbol.bytes, length_leBytes]; exact hhi2
      simp only [List.length_cons] at h3 hcap
      have b1 := byteAt_zero hb1
      have hb2 := drop_next hb1
      rw [if_pos (by simp)]
      simp only [bind, Except.bind, b0, b1]
      rw [putByte_ok (by omega)]
      simp only
      rw [if_pos (by omega), putSym_ok hd hc1 hhi1 hv1 (by omega)]
      simp only
      rw [if_pos (by omega), putSym_ok hd hc2 hhi2 hv2 (by rw [List.length_append]; omega)]
      simp only
      cases hcs with
      | nil => rw [if_neg (by simp)]; simp
      | @sym c3 cs s hc3 hlo3 hhi3 hv3 hcs =>
        simp only [List.length_cons] at h3 hcap
        have hnil : cs = [] := List.length_eq_zero_iff.1 (by omega)
        subst hnil
        cases hcs
        have b2 := byteAt_zero hb2
        rw [if_pos (by simp), show p + 2 = p + 1 + 1 by omega, b2]
        simp only
        rw [putSym_ok hd hc3 hhi3 hv3 (by simp only [List.length_append]; omega)]
        simp
      | esc hb' hcs => simp only [List.length_cons] at h3; omega
    | @esc b cs s hb' hcs =>
      simp only [List.length_cons] at h3 hcap
      have hnil : cs = [] := List.length_eq_zero_iff.1 (by omega)
      subst hnil
      cases hcs
      have b1 := byteAt_zero hb1
      have b2 := byteAt_zero (drop_next hb1)
      rw [if_pos (by simp)]
      simp only [bind, Except.bind, b0, b1]
      rw [putByte_ok (by omega)]
      simp only
      rw [if_pos (by omega), putSym_ok hd hc1 hhi1 hv1 (by omega)]
      simp only
      rw [if_neg (by omega), show p + 2 = p + 1 + 1 by omega, b2]
      simp only
      rw [putByte_ok (by rw [List.length_append]; omega)]
      simp only
      rw [if_neg (by simp)]
      simp
  | @esc b cs s hb' hcs =>
    simp only [List.length_cons] at h3 hcap
    have b0 := byteAt_zero hb
    have hb1 := drop_next hb
    have b1 := byteAt_zero hb1
    have hb2 := drop_next hb1
    rw [if_pos (by simp)]
    simp only [bind, Except.bind, b0, b1]
    rw [putByte_ok (by omega)]
    simp only
    rw [if_neg (by omega)]
    simp only
    cases hcs with
    | nil => rw [if_neg (by simp)]
    | @sym c3 cs s hc3 hlo3 hhi3 hv3 hcs =>
      simp only [List.length_cons] at h3 hcap
      have hnil : cs = [] := List.length_eq_zero_iff.1 (by omega)
      subst hnil
      cases hcs
      have b2 := byteAt_zero hb2
      rw [if_pos (by simp), show p + 2 = p + 1 + 1 by omega, b2]
      simp only
      rw [putSym_ok hd hc3 hhi3 hv3 (by simp only [List.length_append, List.length_cons, List.length_nil]; omega)]
      simp
    | esc hb' hcs => simp only [List.length_cons] at h3; omega

theorem decLoop_ok {st : Table} (hn : st.n ≤ 255) {d : Decoder} (hd : DecOk st d) {bytes : List Nat} (cap fuel : Nat)
    {cs s post : List Nat} (hcs : Codes st cs s) (p : Nat) (out : List Nat) (hb : bytes.drop p = cs ++ post)
    (hfuel : cs.length < fuel) (hcap : out.length + 8 * cs.length ≤ cap) :
    decLoop d bytes (p + cs.length) cap fuel p out = .ok (out ++ s) := by
  induction fuel generalizing cs s p out with
  | zero => omega
  | succ fuel ih =>
    unfold decLoop
    by_cases h4 : p + 4 ≤ p + cs.length
    · rw [if_pos h4]
      have hlen : bytes.length - p = cs.length + post.length := by
        rw [← List.length_drop, hb, List.length_append]
      rw [if_neg (by omega)]
      have htake : (bytes.drop p).take 4 = cs.take 4 := by
        rw [hb, List.take_append_of_le_length (by omega)]
      simp only [htake]
      obtain ⟨s1, s2, e1, e2, e3, e4, e5, e6⟩ := putSyms_ok hn hd cap 4 hcs p out hb (by omega) hcap
      generalize hk : firstEsc (cs.take 4) = k at *
      rw [e2]
      have hbk : bytes.drop (p + k) = cs.drop k ++ post := by
        rw [← List.drop_drop, hb, List.drop_append_of_le_length (by omega)]
      have hdl : (cs.drop k).length = cs.length - k := List.length_drop
      by_cases hk4 : k < 4
      · obtain ⟨b, cs', hx⟩ := e6 hk4
        rw [hx] at e3 hbk hdl
        simp only [List.length_cons] at hdl
        cases e3 with
        | sym hc => omega
        | @esc _ _ s2 hb' hcs' =>
          have b1 := byteAt_zero (drop_next hbk)
          show (if k < 4 then (do
              let x ← byteAt bytes (p + k + 1)
              let out ← putByte cap x (out ++ s1)
              decLoop d bytes (p + cs.length) cap fuel (p + k + 2) out)
            else decLoop d bytes (p + cs.length) cap fuel (p + 4) (out ++ s1)) = _
          rw [if_pos hk4, b1]
          show (do
              let out ← putByte cap b (out ++ s1)
              decLoop d bytes (p + cs.length) cap fuel (p + k + 2) out) = _
          rw [putByte_ok (by rw [List.length_append]; omega)]
          show decLoop d bytes (p + cs.length) cap fuel (p + k + 2) (out ++ s1 ++ [b]) = _
          have := ih hcs' (p + k + 2) (out ++ s1 ++ [b]) (by simpa using drop_next (drop_next hbk)) (by omega)
            (by simp only [List.length_append, List.length_cons, List.length_nil]; omega)
          rw [show p + k + 2 + cs'.length = p + cs.length by omega] at this
          rw [this, e1]; simp
      · have : k = 4 := by omega
        subst this
        show (if 4 < 4 then (do
              let x ← byteAt bytes (p + 4 + 1)
              let out ← putByte cap x (out ++ s1)
              decLoop d bytes (p + cs.length) cap fuel (p + 4 + 2) out)
            else decLoop d bytes (p + cs.length) cap fuel (p + 4) (out ++ s1)) = _
        rw [if_neg (by omega)]
        have := ih e3 (p + 4) (out ++ s1) hbk (by omega) (by rw [List.length_append]; omega)
        rw [show p + 4 + (cs.drop 4).length = p + cs.length by omega] at this
        rw [this, e1]; simp
    · rw [if_neg h4]
      exact decTail_ok hn hd cap hcs p out hb (by omega) hcap

end Verif.Fsst
