import Verif.Fsst.LemmasBytes
/-! The symbol table while it is built. -/
namespace Verif.Fsst

/-- The bytes a symbol stands for. -/
def Symbol.bytes (s : Symbol) : List Nat := leBytes s.len s.val

/-- A symbol with its code: between one and eight bytes, and the sentinel only when it is alone. -/
structure SymOk (τ code : Nat) (s : Symbol) : Prop where
  lo : 1 ≤ s.len
  hi : s.len ≤ 8
  icl : s.icl = packIcl code s.len
  val : s.val < 256 ^ s.len
  term : 2 ≤ s.len → τ ∉ s.bytes

theorem len_packIcl {code len : Nat} (v : Nat) (hc : code < 512) : (Symbol.mk v (packIcl code len)).len = len := by
  simp only [Symbol.len, packIcl]; omega

theorem len_setCodeLen (s : Symbol) {code len : Nat} (hc : code < 512) : (s.setCodeLen code len).len = len :=
  len_packIcl _ hc

theorem val_setCodeLen (s : Symbol) (code len : Nat) : (s.setCodeLen code len).val = s.val := rfl

theorem icl_setCodeLen (s : Symbol) (code len : Nat) : (s.setCodeLen code len).icl = packIcl code len := rfl

theorem code_packIcl {code len : Nat} (v : Nat) (hc : code < 512) (_hl : len ≤ 8) :
    (Symbol.mk v (packIcl code len)).code = code := by
  have : packIcl code len / 2 ^ 16 = len * 4096 + code := by simp only [packIcl]; omega
  simp only [Symbol.code, this]; omega

theorem SymOk.code {τ c : Nat} {s : Symbol} (h : SymOk τ c s) (hc : c < 512) : s.code = c := by
  have h1 := h.hi
  have : packIcl c s.len / 2 ^ 16 = s.len * 4096 + c := by simp only [packIcl]; omega
  rw [Symbol.code, h.icl, this]; omega

theorem SymOk.lt_free {τ c : Nat} {s : Symbol} (h : SymOk τ c s) (hc : c < 512) : s.icl < iclFree := by
  have h1 := h.hi
  have h2 := h.icl
  rw [h2]; simp only [packIcl, iclFree]; omega

theorem SymOk.ignored {τ c : Nat} {s : Symbol} (h : SymOk τ c s) : s.ignored = (8 - s.len) * 8 := by
  have h1 := h.hi
  have h2 := h.icl
  simp only [Symbol.ignored]; rw [h2]; simp only [packIcl]; omega

/-- Another code for the same symbol. -/
theorem SymOk.setCode {τ c c' : Nat} {s : Symbol} (h : SymOk τ c s) (hc : c' < 512) : SymOk τ c' (s.setCodeLen c' s.len) := by
  have hl := len_setCodeLen s (len := s.len) hc
  refine ⟨by rw [hl]; exact h.lo, by rw [hl]; exact h.hi, by rw [hl]; rfl, by rw [hl]; exact h.val, fun h2 => ?_⟩
  rw [hl] at h2
  have := h.term h2
  simpa [Symbol.bytes, hl, val_setCodeLen] using this

theorem len_fromChar (c : Nat) {code : Nat} (hc : code < 512) : (Symbol.fromChar c code).len = 1 := by
  simp only [Symbol.len, Symbol.fromChar]; omega

theorem fromChar_ok (τ : Nat) {c : Nat} (hc : c < 256) : SymOk τ c (Symbol.fromChar c c) := by
  have hl := len_fromChar c (code := c) (by omega)
  refine ⟨by omega, by omega, by rw [hl]; rfl, by rw [hl]; exact hc, fun h => by omega⟩

/-- A symbol that does not begin with the sentinel does not contain it. -/
theorem SymOk.no_term {τ c : Nat} {s : Symbol} (h : SymOk τ c s) (hf : s.first ≠ τ) : τ ∉ s.bytes := by
  by_cases h2 : 2 ≤ s.len
  · exact h.term h2
  · have h1 : s.len = 1 := by have := h.lo; omega
    intro hm
    rw [Symbol.bytes, h1] at hm
    simp only [leBytes, List.mem_singleton] at hm
    exact hf hm.symm

theorem bytes_concat {τ c d : Nat} {l r : Symbol} (hl : SymOk τ c l) (hr : SymOk τ d r) :
    (l.concat r).bytes = (l.bytes ++ r.bytes).take 8 := by
  have hlen : (l.concat r).len = min 8 (l.len + r.len) := len_packIcl _ (by omega)
  rw [Symbol.bytes, hlen]
  show leBytes (min 8 (l.len + r.len)) ((r.val * 256 ^ l.len + l.val) % 2 ^ 64) = _
  rw [show (2 : Nat) ^ 64 = 256 ^ 8 by decide, leBytes_mod _ _ _ (by omega), ← take_leBytes,
    leBytes_append _ _ _ _ hl.val]
  rfl

/-- The two symbols joined, as a candidate (its code is given later). -/
theorem concat_ok {τ c d : Nat} {l r : Symbol} (hl : SymOk τ c l) (hr : SymOk τ d r) (hlf : l.first ≠ τ) (hrf : r.first ≠ τ) :
    SymOk τ 511 (l.concat r) := by
  have hlen : (l.concat r).len = min 8 (l.len + r.len) := len_packIcl _ (by omega)
  have := hl.lo
  refine ⟨by omega, by omega, by rw [hlen]; rfl, ?_, fun _ => ?_⟩
  · rw [hlen]
    show (r.val * 256 ^ l.len + l.val) % 2 ^ 64 < _
    by_cases h8 : l.len + r.len ≤ 8
    · rw [Nat.min_eq_right h8]
      refine Nat.lt_of_le_of_lt (Nat.mod_le _ _) ?_
      have h1 := hl.val
      have h2 := hr.val
      rw [Nat.add_comm l.len, Nat.pow_add]
      calc r.val * 256 ^ l.len + l.val < r.val * 256 ^ l.len + 256 ^ l.len := by omega
        _ = (r.val + 1) * 256 ^ l.len := by rw [Nat.add_mul]; omega
        _ ≤ 256 ^ r.len * 256 ^ l.len := Nat.mul_le_mul_right _ h2
    · rw [Nat.min_eq_left (by omega)]
      have : (2 : Nat) ^ 64 = 256 ^ 8 := by decide
      rw [← this]
      exact Nat.mod_lt _ (by decide)
  · rw [bytes_concat hl hr]
    intro hm
    rcases List.mem_append.1 (List.mem_of_mem_take hm) with h | h
    · exact hl.no_term hlf h
    · exact hr.no_term hrf h

theorem upd_eq {α : Type} (f : Nat → α) (a : α) {i j : Nat} (h : j = i) : upd f i a j = a := if_pos h

theorem upd_ne {α : Type} (f : Nat → α) (a : α) {i j : Nat} (h : j ≠ i) : upd f i a j = f j := if_neg h

/-- How many of the first `i` symbols have the length `L`. -/
def cnt (st : Table) (L : Nat) : Nat → Nat
  | 0 => 0
  | i + 1 => cnt st L i + if (st.symbols (256 + i)).len = L then 1 else 0

theorem cnt_congr {s t : Table} (L i : Nat) (h : ∀ k, k < i → s.symbols (256 + k) = t.symbols (256 + k)) :
    cnt s L i = cnt t L i := by
  induction i with
  | zero => rfl
  | succ i ih => simp only [cnt]; rw [ih (fun k hk => h k (by omega)), h i (by omega)]

/-- The table while it is built. -/
structure TableOk (st : Table) : Prop where
  n : st.n ≤ 255
  chars : ∀ i, i < 256 → st.symbols i = Symbol.fromChar i i
  syms : ∀ k, k < st.n → SymOk (st.terminator % 256) (256 + k) (st.symbols (256 + k))
  byteCodes : ∀ i, i < 256 → st.byteCodes i = i ∨
    ∃ k, k < st.n ∧ st.byteCodes i = 256 + k ∧ (st.symbols (256 + k)).len = 1 ∧ (st.symbols (256 + k)).val = i
  shortCodes : ∀ i, i < 65536 → st.shortCodes i = i % 256 ∨
    ∃ k, k < st.n ∧ st.shortCodes i = 256 + k ∧ (st.symbols (256 + k)).len = 2 ∧ (st.symbols (256 + k)).val = i
  hashTab : ∀ i, iclFree ≤ (st.hashTab i).icl ∨ ∃ k, k < st.n ∧ st.hashTab i = st.symbols (256 + k)
  histo : ∀ L, 1 ≤ L → st.lenHisto (L - 1) = cnt st L st.n

theorem clear_ok (st : Table) : TableOk st.clear := by
  refine ⟨by simp [Table.clear], ?_, ?_, ?_, ?_, ?_, ?_⟩
  · intro i hi; simp [Table.clear, hi]
  · intro k hk; simp [Table.clear] at hk
  · intro i _; exact .inl rfl
  · intro i _; exact .inl rfl
  · intro i; exact .inl (Nat.le_refl _)
  · intro L _; rfl

theorem init_ok (t : Nat) : TableOk { Table.init with terminator := t } :=
  clear_ok ⟨fun _ => 511, fun _ => 0, fun _ => Symbol.empty, fun _ => Symbol.empty, 0, t, 512, fun _ => 0⟩

/-- The symbols of a table, the single bytes included. -/
theorem TableOk.sym {st : Table} (h : TableOk st) {p : Nat} (hp : p < 256 + st.n) :
    SymOk (st.terminator % 256) p (st.symbols p) := by
  by_cases h256 : p < 256
  · rw [h.chars p h256]; exact fromChar_ok _ h256
  · have := h.syms (p - 256) (by omega)
    rwa [show 256 + (p - 256) = p by omega] at this

theorem candidate_ok {st : Table} (h : TableOk st) {c : Nat × Option Nat} {s : Symbol} (hc : st.candidate c = some s) :
    ∃ code, SymOk (st.terminator % 256) code s := by
  obtain ⟨p, q⟩ := c
  cases q with
  | none =>
    simp only [Table.candidate] at hc
    split at hc
    · cases hc; rename_i hp; exact ⟨p, h.sym hp⟩
    · cases hc
  | some q =>
    simp only [Table.candidate] at hc
    split at hc
    · cases hc; rename_i hp
      exact ⟨511, concat_ok (h.sym hp.1) (h.sym hp.2.1) hp.2.2.1 hp.2.2.2.2⟩
    · cases hc

/-- The table after a symbol has been put at the end; `t` is the table with the lookup structure already changed. -/
theorem fin_ok {st t : Table} {s : Symbol} (h : TableOk st) (hn : st.n < 255) (hs : SymOk (st.terminator % 256) (256 + st.n) s)
    (e1 : t.symbols = upd st.symbols (256 + st.n) s) (e2 : t.n = st.n + 1)
    (e3 : t.lenHisto = upd st.lenHisto (s.len - 1) (st.lenHisto (s.len - 1) + 1)) (e4 : t.terminator = st.terminator)
    (hb : ∀ i, i < 256 → t.byteCodes i = st.byteCodes i ∨ (t.byteCodes i = 256 + st.n ∧ s.len = 1 ∧ s.val = i))
    (hsh : ∀ i, i < 65536 → t.shortCodes i = st.shortCodes i ∨ (t.shortCodes i = 256 + st.n ∧ s.len = 2 ∧ s.val = i))
    (hh : ∀ i, t.hashTab i = st.hashTab i ∨ t.hashTab i = s) : TableOk t := by
  have new : t.symbols (256 + st.n) = s := by rw [e1]; simp [upd]
  have old : ∀ j, j ≠ 256 + st.n → t.symbols j = st.symbols j := by intro j hj; rw [e1]; simp [upd, hj]
  have oldk : ∀ k, k < st.n → t.symbols (256 + k) = st.symbols (256 + k) := fun k hk => old _ (by omega)
  refine ⟨by omega, ?_, ?_, ?_, ?_, ?_, ?_⟩
  · intro i hi; rw [old i (by omega), h.chars i hi]
  · intro k hk
    rw [e4]
    by_cases hk' : k = st.n
    · subst hk'; rw [new]; exact hs
    · rw [oldk k (by omega)]; exact h.syms k (by omega)
  · intro i hi
    rcases hb i hi with e | ⟨e, hl, hv⟩
    · rcases h.byteCodes i hi with h' | ⟨k, hk, a, b, c⟩
      · exact .inl (by rw [e, h'])
      · exact .inr ⟨k, by omega, by rw [e, a], by rw [oldk k hk]; exact b, by rw [oldk k hk]; exact c⟩
    · exact .inr ⟨st.n, by omega, e, by rw [new]; exact hl, by rw [new]; exact hv⟩
  · intro i hi
    rcases hsh i hi with e | ⟨e, hl, hv⟩
    · rcases h.shortCodes i hi with h' | ⟨k, hk, a, b, c⟩
      · exact .inl (by rw [e, h'])
      · exact .inr ⟨k, by omega, by rw [e, a], by rw [oldk k hk]; exact b, by rw [oldk k hk]; exact c⟩
    · exact .inr ⟨st.n, by omega, e, by rw [new]; exact hl, by rw [new]; exact hv⟩
  · intro i
    rcases hh i with e | e
    · rcases h.hashTab i with h' | ⟨k, hk, a⟩
      · exact .inl (by rw [e]; exact h')
      · exact .inr ⟨k, by omega, by rw [e, a, oldk k hk]⟩
    · exact .inr ⟨st.n, by omega, by rw [e, new]⟩
  · intro L hL
    rw [e2, cnt, new, cnt_congr (t := st) L st.n (fun k hk => oldk k hk), ← h.histo L hL, e3]
    have := hs.lo
    by_cases hl : s.len = L
    · subst hl; simp [upd]
    · have : L - 1 ≠ s.len - 1 := by omega
      simp [upd, this, hl]

theorem add_ok {st : Table} (h : TableOk st) (hn : st.n < 255) {c : Nat} {s : Symbol} (hs : SymOk (st.terminator % 256) c s) :
    ∃ t, st.add s = .ok t ∧ TableOk t ∧ t.terminator = st.terminator := by
  have hs' := hs.setCode (c' := 256 + st.n) (by omega)
  have hlen : (s.setCodeLen (256 + st.n) s.len).len = s.len := len_setCodeLen s (by omega)
  have lo := hs.lo
  have hi := hs.hi
  unfold Table.add
  rw [if_neg (by omega)]
  simp only
  rw [if_neg (by omega)]
  by_cases h1 : s.len = 1
  · rw [if_pos h1]
    refine ⟨_, rfl, fin_ok h hn hs' rfl rfl (by rw [hlen]) rfl ?_ (fun i _ => .inl rfl) (fun i => .inl rfl), rfl⟩
    intro i hi'
    have hv := hs.val
    rw [h1] at hv
    show upd st.byteCodes (s.setCodeLen (256 + st.n) s.len).first (256 + st.n) i = _ ∨
      (upd st.byteCodes (s.setCodeLen (256 + st.n) s.len).first (256 + st.n) i = _ ∧ _)
    by_cases hi2 : i = (s.setCodeLen (256 + st.n) s.len).first
    · right; rw [upd_eq _ _ hi2]
      have : i = s.val % 256 := hi2
      exact ⟨rfl, by rw [hlen, h1], by show s.val = i; omega⟩
    · left; rw [upd_ne _ _ hi2]
  · rw [if_neg h1]
    by_cases h2 : s.len = 2
    · rw [if_pos h2]
      refine ⟨_, rfl, fin_ok h hn hs' rfl rfl (by rw [hlen]) rfl (fun i _ => .inl rfl) ?_ (fun i => .inl rfl), rfl⟩
      intro i hi'
      have hv := hs.val
      rw [h2] at hv
      show upd st.shortCodes (s.setCodeLen (256 + st.n) s.len).first2 (256 + st.n) i = _ ∨
        (upd st.shortCodes (s.setCodeLen (256 + st.n) s.len).first2 (256 + st.n) i = _ ∧ _)
      by_cases hi2 : i = (s.setCodeLen (256 + st.n) s.len).first2
      · right; rw [upd_eq _ _ hi2]
        have : i = s.val % 65536 := hi2
        exact ⟨rfl, by rw [hlen, h2], by show s.val = i; omega⟩
      · left; rw [upd_ne _ _ hi2]
    · rw [if_neg h2]
      unfold Table.hashInsert
      by_cases ht : (st.hashTab (hashSlot (s.setCodeLen (256 + st.n) s.len).val)).icl < iclFree
      · rw [if_pos ht]; exact ⟨st, rfl, h, rfl⟩
      · rw [if_neg ht]
        refine ⟨_, rfl, fin_ok h hn hs' rfl rfl (by rw [hlen]) rfl (fun i _ => .inl rfl) (fun i _ => .inl rfl) ?_, rfl⟩
        intro i
        show upd st.hashTab _ _ i = _ ∨ upd st.hashTab _ _ i = _
        simp only [upd]
        split
        · right
          rw [hs'.ignored, two_pow_eq _ hs'.hi, Nat.mod_eq_of_lt hs'.val]
        · exact .inl rfl

theorem addAll_ok (l : List Symbol) {st : Table} (h : TableOk st)
    (hl : ∀ s ∈ l, ∃ c, SymOk (st.terminator % 256) c s) :
    ∃ t, addAll st l = .ok t ∧ TableOk t ∧ t.terminator = st.terminator := by
  induction l generalizing st with
  | nil => exact ⟨st, rfl, h, rfl⟩
  | cons s l ih =>
    unfold addAll
    split
    · rename_i hn
      obtain ⟨c, hc⟩ := hl s (List.mem_cons_self ..)
      obtain ⟨t, e, ht, hterm⟩ := add_ok h hn hc
      obtain ⟨u, e', hu, hterm'⟩ := ih ht (fun s hs => by rw [hterm]; exact hl s (List.mem_cons_of_mem _ hs))
      refine ⟨u, ?_, hu, by rw [hterm', hterm]⟩
      rw [e]; exact e'
    · exact ⟨st, rfl, h, rfl⟩

theorem makeTable_ok {st : Table} (h : TableOk st) (picks : List (Nat × Option Nat)) :
    ∃ t, makeTable st picks = .ok t ∧ TableOk t ∧ t.terminator = st.terminator := by
  refine addAll_ok _ (clear_ok st) ?_
  intro s hs
  obtain ⟨c, _, hc⟩ := List.mem_filterMap.1 hs
  exact candidate_ok h hc

theorem rounds_ok (l : List (Int × List (Nat × Option Nat))) {st best : Table} (g : Int) (h : TableOk st) (hb : TableOk best) :
    ∃ t, rounds st best g l = .ok t ∧ TableOk t := by
  induction l generalizing st best g with
  | nil => exact ⟨best, rfl, hb⟩
  | cons a l ih =>
    obtain ⟨g', picks⟩ := a
    obtain ⟨t, e, ht, _⟩ := makeTable_ok h picks
    unfold rounds
    rw [e]
    show ∃ u, (if g ≤ g' then rounds t st g' l else rounds t best g l) = .ok u ∧ TableOk u
    split
    · exact ih g' ht h
    · exact ih g ht hb

end Verif.Fsst
