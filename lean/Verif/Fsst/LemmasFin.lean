import Verif.Fsst.LemmasTable
/-! `finalize` gives every symbol a code of its own. -/
namespace Verif.Fsst

theorem cnt_mono (st : Table) (L : Nat) {i j : Nat} (h : i ≤ j) : cnt st L i ≤ cnt st L j := by
  induction j with
  | zero => rw [Nat.le_zero.1 h]; exact Nat.le_refl _
  | succ j ih =>
    by_cases hj : i = j + 1
    · rw [hj]; exact Nat.le_refl _
    · exact Nat.le_trans (ih (by omega)) (by rw [cnt]; omega)

theorem cnt_sum (st : Table) (i : Nat) (h : ∀ k, k < i → 1 ≤ (st.symbols (256 + k)).len ∧ (st.symbols (256 + k)).len ≤ 8) :
    cnt st 1 i + cnt st 2 i + cnt st 3 i + cnt st 4 i + cnt st 5 i + cnt st 6 i + cnt st 7 i + cnt st 8 i = i := by
  induction i with
  | zero => rfl
  | succ i ih =>
    have := ih (fun k hk => h k (by omega))
    have hi := h i (by omega)
    simp only [cnt]
    generalize (st.symbols (256 + i)).len = l at hi
    have : l = 1 ∨ l = 2 ∨ l = 3 ∨ l = 4 ∨ l = 5 ∨ l = 6 ∨ l = 7 ∨ l = 8 := by omega
    rcases this with rfl | rfl | rfl | rfl | rfl | rfl | rfl | rfl <;> simp <;> omega

/-- The first code of a length. -/
def base (st : Table) (L : Nat) : Nat := rsum0 st.lenHisto st.n (L - 1)

theorem cases8 {l : Nat} (h : 1 ≤ l ∧ l ≤ 8) : l = 1 ∨ l = 2 ∨ l = 3 ∨ l = 4 ∨ l = 5 ∨ l = 6 ∨ l = 7 ∨ l = 8 := by omega

section
variable {st : Table} (h : TableOk st)
include h

theorem histo_sum : st.lenHisto 0 + st.lenHisto 1 + st.lenHisto 2 + st.lenHisto 3 + st.lenHisto 4 + st.lenHisto 5 +
    st.lenHisto 6 + st.lenHisto 7 = st.n := by
  have := cnt_sum st st.n (fun k hk => ⟨(h.syms k hk).lo, (h.syms k hk).hi⟩)
  have h1 := h.histo 1 (by omega)
  have h2 := h.histo 2 (by omega)
  have h3 := h.histo 3 (by omega)
  have h4 := h.histo 4 (by omega)
  have h5 := h.histo 5 (by omega)
  have h6 := h.histo 6 (by omega)
  have h7 := h.histo 7 (by omega)
  have h8 := h.histo 8 (by omega)
  simp only [Nat.sub_self, Nat.reduceSub] at h1 h2 h3 h4 h5 h6 h7 h8
  omega

theorem base_le {L : Nat} (hL : 1 ≤ L ∧ L ≤ 8) : base st L + st.lenHisto (L - 1) ≤ st.n := by
  have := histo_sum h
  rcases cases8 hL with rfl | rfl | rfl | rfl | rfl | rfl | rfl | rfl <;>
    simp only [base, rsum0, Nat.sub_self, Nat.reduceSub] <;> omega

theorem base_disj {L M : Nat} (hL : 1 ≤ L ∧ L ≤ 8) (hM : 1 ≤ M ∧ M ≤ 8) (hne : L ≠ M) :
    base st L + st.lenHisto (L - 1) ≤ base st M ∨ base st M + st.lenHisto (M - 1) ≤ base st L := by
  have := histo_sum h
  rcases cases8 hL with rfl | rfl | rfl | rfl | rfl | rfl | rfl | rfl <;>
    rcases cases8 hM with rfl | rfl | rfl | rfl | rfl | rfl | rfl | rfl <;>
    first
    | exact absurd rfl hne
    | (simp only [base, rsum0, Nat.sub_self, Nat.reduceSub]; omega)

theorem cnt_lt {L i : Nat} (hi : i < st.n) (hl : (st.symbols (256 + i)).len = L) : cnt st L i < st.lenHisto (L - 1) := by
  have hL : 1 ≤ L := hl ▸ (h.syms i hi).lo
  rw [h.histo L hL]
  have := cnt_mono st L (i := i + 1) (j := st.n) hi
  rw [cnt, if_pos hl] at this
  omega

end

/-- Where the code of a symbol of length `L` lies while the loop has reached position `i`. -/
def Region (st : Table) (f : Fin) (i L c : Nat) : Prop :=
  if L = 2 then c < f.suffixLim ∨ (f.j ≤ c ∧ c < st.lenHisto 1)
  else base st L ≤ c ∧ c < base st L + cnt st L i

/-- The loop of `finalize`, before position `i`. -/
structure FinInv (st : Table) (i : Nat) (f : Fin) : Prop where
  rsum : ∀ L, 1 ≤ L ∧ L ≤ 8 → L ≠ 2 → f.rsum (L - 1) = base st L + cnt st L i
  two : f.suffixLim + st.lenHisto 1 = cnt st 2 i + f.j
  jle : f.j ≤ st.lenHisto 1
  old : ∀ m, 256 ≤ m → f.symbols m = st.symbols m
  code : ∀ k, k < i → f.newCode k < st.n ∧ Region st f i (st.symbols (256 + k)).len (f.newCode k) ∧
    f.symbols (f.newCode k) = (st.symbols (256 + k)).setCodeLen (f.newCode k) (st.symbols (256 + k)).len

/-- One more code `c`, in a place that no earlier symbol has. -/
theorem finInv_step {st : Table} (h : TableOk st) {i : Nat} {f g : Fin} (hi : i < st.n) (hf : FinInv st i f) (c : Nat) (hc : c < st.n)
    (e1 : g.newCode = upd f.newCode i c)
    (e2 : g.symbols = upd f.symbols c ((st.symbols (256 + i)).setCodeLen c (st.symbols (256 + i)).len))
    (fresh : ∀ L d, 1 ≤ L ∧ L ≤ 8 → Region st f i L d → d ≠ c)
    (grow : ∀ L d, Region st f i L d → Region st g (i + 1) L d)
    (mine : Region st g (i + 1) (st.symbols (256 + i)).len c) :
    (∀ m, 256 ≤ m → g.symbols m = st.symbols m) ∧
    ∀ k, k < i + 1 → g.newCode k < st.n ∧ Region st g (i + 1) (st.symbols (256 + k)).len (g.newCode k) ∧
      g.symbols (g.newCode k) = (st.symbols (256 + k)).setCodeLen (g.newCode k) (st.symbols (256 + k)).len := by
  have hn := h.n
  refine ⟨fun m hm => ?_, fun k hk => ?_⟩
  · rw [e2, upd_ne _ _ (by omega)]; exact hf.old m hm
  · by_cases hki : k = i
    · subst hki
      rw [e1, upd_eq _ _ rfl, e2, upd_eq _ _ rfl]
      exact ⟨hc, mine, rfl⟩
    · obtain ⟨a, b, d⟩ := hf.code k (by omega)
      have hl := h.syms k (by omega)
      have ne := fresh _ _ ⟨hl.lo, hl.hi⟩ b
      rw [e1, upd_ne _ _ hki, e2, upd_ne _ _ ne]
      exact ⟨a, grow _ _ b, d⟩

theorem finStep_ok {st : Table} (h : TableOk st) {i : Nat} {f : Fin} (hi : i < st.n) (hf : FinInv st i f) :
    ∃ g, finStep st f i = .ok g ∧ FinInv st (i + 1) g := by
  have hs := h.syms i hi
  have hn := h.n
  have hL : 1 ≤ (st.symbols (256 + i)).len ∧ (st.symbols (256 + i)).len ≤ 8 := ⟨hs.lo, hs.hi⟩
  have e := hf.old (256 + i) (by omega)
  have hsum := histo_sum h
  have b2 : base st 2 = 0 := rfl
  unfold finStep
  simp only [e]
  rw [if_neg (by omega)]
  by_cases h2 : (st.symbols (256 + i)).len = 2
  · rw [if_pos h2]
    have hlt := cnt_lt h hi h2
    simp only [Nat.reduceSub] at hlt
    have htwo := hf.two
    have hj := hf.jle
    have cnt2 : cnt st 2 (i + 1) = cnt st 2 i + 1 := by rw [cnt, if_pos h2]
    have cntL : ∀ L, L ≠ 2 → cnt st L (i + 1) = cnt st L i := by
      intro L hne; rw [cnt, if_neg (by omega)]; rfl
    have le1 : st.lenHisto 1 ≤ st.n := by omega
    by_cases hsuf : st.hasSuffix i = true
    · rw [if_pos hsuf]
      refine ⟨_, rfl, ?_⟩
      have := finInv_step h hi hf (g := ⟨upd f.newCode i f.suffixLim, f.rsum, f.suffixLim + 1, f.j,
          upd f.symbols f.suffixLim ((st.symbols (256 + i)).setCodeLen f.suffixLim (st.symbols (256 + i)).len)⟩)
        f.suffixLim (by omega) rfl rfl
        (by
          intro L d hL' hr
          simp only [Region] at hr
          split at hr
          · omega
          · rename_i hne
            have hd := base_disj h (L := 2) (M := L) (by omega) hL' (by omega)
            have := cnt_mono st L (i := i) (j := st.n) (by omega)
            have := h.histo L hL'.1
            simp only [Nat.reduceSub] at hd
            omega)
        (by
          intro L d hr
          simp only [Region] at hr ⊢
          split
          · rename_i hl; rw [if_pos hl] at hr; omega
          · rename_i hl; rw [if_neg hl] at hr; rw [cntL L hl]; exact hr)
        (by
          simp only [Region]; rw [if_pos h2]; omega)
      exact ⟨fun L h1 hne => by rw [cntL L hne]; exact hf.rsum L h1 hne, by show f.suffixLim + 1 + _ = _; rw [cnt2]; show _ = _ + 1 + f.j; omega, hj,
        this.1, this.2⟩
    · rw [if_neg hsuf, if_neg (by omega)]
      refine ⟨_, rfl, ?_⟩
      have := finInv_step h hi hf (g := ⟨upd f.newCode i (f.j - 1), f.rsum, f.suffixLim, f.j - 1,
          upd f.symbols (f.j - 1) ((st.symbols (256 + i)).setCodeLen (f.j - 1) (st.symbols (256 + i)).len)⟩)
        (f.j - 1) (by omega) rfl rfl
        (by
          intro L d hL' hr
          simp only [Region] at hr
          split at hr
          · omega
          · rename_i hne
            have hd := base_disj h (L := 2) (M := L) (by omega) hL' (by omega)
            have := cnt_mono st L (i := i) (j := st.n) (by omega)
            have := h.histo L hL'.1
            simp only [Nat.reduceSub] at hd
            omega)
        (by
          intro L d hr
          simp only [Region] at hr ⊢
          split
          · rename_i hl; rw [if_pos hl] at hr; omega
          · rename_i hl; rw [if_neg hl] at hr; rw [cntL L hl]; exact hr)
        (by
          simp only [Region]; rw [if_pos h2]; omega)
      exact ⟨fun L h1 hne => by rw [cntL L hne]; exact hf.rsum L h1 hne, by show f.suffixLim + _ = _ + (f.j - 1); rw [cnt2]; omega,
        by show f.j - 1 ≤ _; omega, this.1, this.2⟩
  · rw [if_neg h2]
    have hlt := cnt_lt h hi rfl
    have hr := hf.rsum _ hL h2
    have hle := base_le h hL
    rw [if_neg (by omega)]
    have cntS : cnt st (st.symbols (256 + i)).len (i + 1) = cnt st (st.symbols (256 + i)).len i + 1 := by rw [cnt, if_pos rfl]
    have cntL : ∀ L, L ≠ (st.symbols (256 + i)).len → cnt st L (i + 1) = cnt st L i := by
      intro L hne; rw [cnt, if_neg (by omega)]; rfl
    refine ⟨_, rfl, ?_⟩
    have := finInv_step h hi hf (g := ⟨upd f.newCode i (f.rsum ((st.symbols (256 + i)).len - 1)),
          upd f.rsum ((st.symbols (256 + i)).len - 1) (f.rsum ((st.symbols (256 + i)).len - 1) + 1), f.suffixLim, f.j,
          upd f.symbols (f.rsum ((st.symbols (256 + i)).len - 1))
            ((st.symbols (256 + i)).setCodeLen (f.rsum ((st.symbols (256 + i)).len - 1)) (st.symbols (256 + i)).len)⟩)
        (f.rsum ((st.symbols (256 + i)).len - 1)) (by omega) rfl rfl
        (by
          intro L d hL' hreg
          simp only [Region] at hreg
          split at hreg
          · have hd := base_disj h (L := 2) (M := (st.symbols (256 + i)).len) (by omega) hL (by omega)
            simp only [Nat.reduceSub] at hd
            have := hf.two
            have := hf.jle
            have := cnt_mono st 2 (i := i) (j := st.n) (by omega)
            have h22 := h.histo 2 (by omega)
            simp only [Nat.reduceSub] at h22
            omega
          · rename_i hne
            by_cases hl : L = (st.symbols (256 + i)).len
            · subst hl; omega
            · have hd := base_disj h hL hL' (Ne.symm hl)
              have := cnt_mono st L (i := i) (j := st.n) (by omega)
              have := h.histo L hL'.1
              omega)
        (by
          intro L d hreg
          simp only [Region] at hreg ⊢
          split
          · rename_i hl; rw [if_pos hl] at hreg; exact hreg
          · rename_i hl; rw [if_neg hl] at hreg
            have := cnt_mono st L (i := i) (j := i + 1) (by omega)
            omega)
        (by
          simp only [Region]; rw [if_neg h2, cntS]; omega)
    refine ⟨fun L h1 hne => ?_, ?_, hf.jle, this.1, this.2⟩
    · show upd f.rsum _ _ (L - 1) = _
      by_cases hl : L = (st.symbols (256 + i)).len
      · subst hl; rw [upd_eq _ _ rfl, cntS]; omega
      · rw [upd_ne _ _ (by omega), cntL L hl]; exact hf.rsum L h1 hne
    · show f.suffixLim + _ = _ + f.j
      rw [cntL 2 (by omega)]; exact hf.two

theorem finLoop_ok {st : Table} (h : TableOk st) (m : Nat) {i : Nat} {f : Fin} (hi : i + m = st.n) (hf : FinInv st i f) :
    ∃ g, finLoop st f (List.range' i m) = .ok g ∧ FinInv st st.n g := by
  induction m generalizing i f with
  | zero => exact ⟨f, rfl, by rw [← hi]; exact hf⟩
  | succ m ih =>
    obtain ⟨g, e, hg⟩ := finStep_ok h (by omega) hf
    obtain ⟨u, e', hu⟩ := ih (by omega) hg
    refine ⟨u, ?_, hu⟩
    rw [List.range'_succ, finLoop, e]
    exact e'

/-- The finished table: what looking up a word can give. -/
structure FinalOk (st : Table) : Prop where
  n : st.n ≤ 255
  lookup : ∀ w, w < 2 ^ 64 → st.lookup w = 511 + 4096 ∨
    ∃ c, c < st.n ∧ SymOk (st.terminator % 256) c (st.symbols c) ∧ st.lookup w = c + 4096 * (st.symbols c).len ∧
      (st.symbols c).val = w % 256 ^ (st.symbols c).len

theorem lookup_cases (t : Table) (w : Nat) :
    ((t.hashTab (hashSlot w)).icl < iclFree ∧
      (t.hashTab (hashSlot w)).val = w % 2 ^ (64 - (t.hashTab (hashSlot w)).icl % 65536) ∧
      t.lookup w = (t.hashTab (hashSlot w)).icl / 65536 % 65536) ∨ t.lookup w = t.shortCodes (w % 65536) := by
  unfold Table.lookup
  by_cases h : (t.hashTab (hashSlot w)).icl < iclFree ∧
      (t.hashTab (hashSlot w)).val = w % 2 ^ (64 - (t.hashTab (hashSlot w)).icl % 65536)
  · left; simp only; rw [if_pos h]; exact ⟨h.1, h.2, rfl⟩
  · right; simp only; rw [if_neg h]

theorem finalize_ok {st : Table} (h : TableOk st) : ∃ t, st.finalize = .ok t ∧ FinalOk t ∧ t.n = st.n := by
  have hn := h.n
  have start : FinInv st 0 ⟨fun _ => 0, rsum0 st.lenHisto st.n, 0, rsum0 st.lenHisto st.n 2, st.symbols⟩ := by
    have e2 : rsum0 st.lenHisto st.n 2 = st.lenHisto 1 := by simp [rsum0]
    exact ⟨fun L _ _ => rfl, by simp only [e2]; rw [cnt], by simp [e2], fun _ _ => rfl, fun k hk => by omega⟩
  obtain ⟨f, e, hf⟩ := finLoop_ok h st.n (by omega) start
  unfold Table.finalize
  rw [if_neg (by omega)]
  simp only [List.range_eq_range', e]
  refine ⟨{ st with
      symbols := f.symbols
      byteCodes := fun i => if 256 ≤ st.byteCodes i % 512 then f.newCode (st.byteCodes i % 256) + 1 * 4096 else 511 + 1 * 4096
      shortCodes := fun i =>
        if 256 < st.shortCodes i % 512 then f.newCode (st.shortCodes i % 256) + 2 * 4096
        else if 256 ≤ st.byteCodes (i % 256) % 512 then f.newCode (st.byteCodes (i % 256) % 256) + 1 * 4096 else 511 + 1 * 4096
      hashTab := fun i =>
        if (st.hashTab i).icl < iclFree then f.symbols (f.newCode ((st.hashTab i).code % 256)) else st.hashTab i
      suffixLim := f.suffixLim }, rfl, ⟨hn, ?_⟩, rfl⟩
  have code_ok : ∀ k, k < st.n → SymOk (st.terminator % 256) (f.newCode k) (f.symbols (f.newCode k)) ∧
      (f.symbols (f.newCode k)).len = (st.symbols (256 + k)).len ∧ (f.symbols (f.newCode k)).val = (st.symbols (256 + k)).val := by
    intro k hk
    obtain ⟨a, _, b⟩ := hf.code k hk
    rw [b]
    exact ⟨(h.syms k hk).setCode (by omega), len_setCodeLen _ (by omega), rfl⟩
  have byte_ok : ∀ i, i < 256 → ∀ bc : Nat, bc = (if 256 ≤ st.byteCodes i % 512 then f.newCode (st.byteCodes i % 256) + 1 * 4096 else 511 + 1 * 4096) →
      bc = 511 + 4096 ∨ ∃ c, c < st.n ∧ SymOk (st.terminator % 256) c (f.symbols c) ∧ bc = c + 4096 * (f.symbols c).len ∧
        (f.symbols c).val = i % 256 ^ (f.symbols c).len ∧ (f.symbols c).len = 1 := by
    intro i hi bc hbc
    rcases h.byteCodes i hi with hb | ⟨k, hk, a, b, c⟩
    · left; rw [hbc, if_neg (by omega)]
    · right
      obtain ⟨s1, s2, s3⟩ := code_ok k hk
      have : st.byteCodes i % 256 = k := by omega
      rw [if_pos (by omega), this] at hbc
      refine ⟨f.newCode k, (hf.code k hk).1, s1, by rw [s2, b]; omega, ?_, by rw [s2, b]⟩
      rw [s3, c, s2, b]; omega
  intro w hw
  rcases lookup_cases _ w with ⟨l1, l2, l3⟩ | l3
  · rw [l3]
    clear l3
    simp only at l1 l2 ⊢
    generalize hashSlot w = slot at l1 l2 ⊢
    by_cases hfree : (st.hashTab slot).icl < iclFree
    · rw [if_pos hfree] at l1 l2 ⊢
      rcases h.hashTab slot with h' | ⟨k, hk, a⟩
      · omega
      · right
        obtain ⟨s1, s2, s3⟩ := code_ok k hk
        have hc : (st.hashTab slot).code % 256 = k := by
          rw [a, (h.syms k hk).code (by omega)]; omega
        rw [hc] at l1 l2 ⊢
        have hcn := (hf.code k hk).1
        have hig := s1.ignored
        have := s1.hi
        refine ⟨f.newCode k, hcn, s1, ?_, ?_⟩
        · have q : packIcl (f.newCode k) (f.symbols (f.newCode k)).len / 65536 = (f.symbols (f.newCode k)).len * 4096 + f.newCode k := by
            simp only [packIcl]; omega
          rw [s1.icl, q]; omega
        · rw [show (65536 : Nat) = 2 ^ 16 by decide] at l2
          rw [show (f.symbols (f.newCode k)).icl % 2 ^ 16 = (f.symbols (f.newCode k)).ignored from rfl, hig, two_pow_eq _ s1.hi] at l2
          exact l2
    · rw [if_neg hfree] at l1
      omega
  · rw [l3]
    clear l3
    simp only
    have hw2 : w % 65536 < 65536 := by omega
    have last : st.shortCodes (w % 65536) % 512 ≤ 256 →
        (if 256 < st.shortCodes (w % 65536) % 512 then f.newCode (st.shortCodes (w % 65536) % 256) + 2 * 4096
          else if 256 ≤ st.byteCodes (w % 65536 % 256) % 512 then f.newCode (st.byteCodes (w % 65536 % 256) % 256) + 1 * 4096
          else 511 + 1 * 4096) = 511 + 4096 ∨
        ∃ c, c < st.n ∧ SymOk (st.terminator % 256) c (f.symbols c) ∧
          (if 256 < st.shortCodes (w % 65536) % 512 then f.newCode (st.shortCodes (w % 65536) % 256) + 2 * 4096
          else if 256 ≤ st.byteCodes (w % 65536 % 256) % 512 then f.newCode (st.byteCodes (w % 65536 % 256) % 256) + 1 * 4096
          else 511 + 1 * 4096) = c + 4096 * (f.symbols c).len ∧ (f.symbols c).val = w % 256 ^ (f.symbols c).len := by
      intro hle
      rw [if_neg (by omega)]
      rcases byte_ok (w % 65536 % 256) (by omega) _ rfl with h' | ⟨c, h1, h2, h3, h4, h5⟩
      · exact .inl h'
      · right
        refine ⟨c, h1, h2, h3, ?_⟩
        rw [h4, h5]; omega
    rcases h.shortCodes _ hw2 with hb | ⟨k, hk, a, b, c⟩
    · exact last (by omega)
    · by_cases h256 : 256 < st.shortCodes (w % 65536) % 512
      · right
        obtain ⟨s1, s2, s3⟩ := code_ok k hk
        have : st.shortCodes (w % 65536) % 256 = k := by omega
        rw [if_pos h256, this]
        refine ⟨f.newCode k, (hf.code k hk).1, s1, by rw [s2, b], ?_⟩
        rw [s3, c, s2, b]
      · exact last (by omega)

theorem build_ok (o : Oracle) : build o = .error .refused ∨ ∃ t, build o = .ok t ∧ FinalOk t ∧ 0 < t.n := by
  unfold build
  obtain ⟨b, e, hb⟩ := rounds_ok o.rounds (st := { Table.init with terminator := o.terminator }) (best := Table.init)
    (-(sampleMax : Int)) (init_ok _) (clear_ok _)
  obtain ⟨t, e', ht, _⟩ := finalize_ok hb
  rw [e]
  show (do let t ← b.finalize; if t.n = 0 then Except.error Fail.refused else Except.ok t) = _ ∨ ∃ u, (do let t ← b.finalize; if t.n = 0 then Except.error Fail.refused else Except.ok t) = _ ∧ _
  rw [e']
  show (if t.n = 0 then Except.error Fail.refused else Except.ok t) = _ ∨ ∃ u, (if t.n = 0 then Except.error Fail.refused else Except.ok t) = _ ∧ _
  by_cases h0 : t.n = 0
  · left; rw [if_pos h0]
  · right; rw [if_neg h0]; exact ⟨t, rfl, ht, by omega⟩

end Verif.Fsst
