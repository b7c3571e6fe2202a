import Verif.Mini.Binary
import Verif.Mini.LemmasValue
import Verif.Fsst.PropsFsst
/-!
# Mini-blocks of strings: lemmas
-/
namespace Verif.Mini
open Fsst (strings offsetsFrom OffsetsOk)

/-! ### Offsets -/

theorem offsetsOk_mono {n : Nat} : ∀ {offs : List Nat}, OffsetsOk n offs → ∀ {i j}, i ≤ j → j < offs.length →
    off offs i ≤ off offs j ∧ off offs j ≤ n := by
  intro offs
  induction offs with
  | nil => intro h; exact absurd h (by simp [OffsetsOk])
  | cons a rest ih =>
    intro h i j hij hj
    cases rest with
    | nil =>
      have : j = 0 := by simp at hj; omega
      subst this
      have : i = 0 := by omega
      subst this
      exact ⟨Nat.le_refl _, h⟩
    | cons b rest =>
      have h2 : OffsetsOk n (b :: rest) := h.2
      cases j with
      | zero =>
        have : i = 0 := by omega
        subst this
        have h0 := ih h2 (i := 0) (j := 0) (Nat.le_refl _) (by simp)
        have hab := h.1
        simp only [off, List.getD_cons_zero] at h0 ⊢
        omega
      | succ j =>
        cases i with
        | zero =>
          have h0 := ih h2 (i := 0) (j := j) (by omega) (by simpa using hj)
          have hab := h.1
          simp only [off, List.getD_cons_zero, List.getD_cons_succ] at h0 ⊢
          omega
        | succ i => exact ih h2 (i := i) (j := j) (by omega) (by simpa using hj)

theorem strings_length (buf : List Nat) : ∀ offs : List Nat, (strings buf offs).length = offs.length - 1
  | [] => rfl
  | [_] => rfl
  | a :: b :: rest => by
    have := strings_length buf (b :: rest)
    simp only [strings, List.length_cons] at this ⊢
    omega

/-- Some strings in a row are a slice of the buffer. -/
theorem strings_slice (buf : List Nat) (n : Nat) (hn : n = buf.length) : ∀ (offs : List Nat), OffsetsOk n offs →
    ∀ (s e : Nat), s ≤ e → e < offs.length →
    (((strings buf offs).drop s).take (e - s)).flatten = (buf.drop (off offs s)).take (off offs e - off offs s) := by
  intro offs h s e hse he
  induction e with
  | zero =>
    have : s = 0 := by omega
    subst this
    simp
  | succ e ih =>
    by_cases hs : s = e + 1
    · subst hs; simp
    · have ih := ih (by omega) (by omega)
      have hm1 := offsetsOk_mono h (i := s) (j := e) (by omega) (by omega)
      have hm2 := offsetsOk_mono h (i := e) (j := e + 1) (by omega) he
      have hget : ∀ (offs : List Nat) (e : Nat), e + 1 < offs.length →
          (strings buf offs)[e]? = some ((buf.drop (off offs e)).take (off offs (e + 1) - off offs e)) := by
        intro offs
        induction offs with
        | nil => intro e h; simp at h
        | cons a rest ih =>
          intro e h
          cases rest with
          | nil => simp at h
          | cons b rest =>
            cases e with
            | zero => simp [strings, off]
            | succ e =>
              have := ih e (by simpa using h)
              simpa [strings, off] using this
      rw [show e + 1 - s = (e - s) + 1 by omega, List.take_add_one, List.flatten_append, ih, List.getElem?_drop,
        show s + (e - s) = e by omega, hget offs e (by omega)]
      simp only [Option.toList_some, List.flatten_cons, List.flatten_nil, List.append_nil]
      rw [show off offs (e + 1) - off offs s = (off offs e - off offs s) + (off offs (e + 1) - off offs e) by omega,
        List.take_add, List.drop_drop, show off offs s + (off offs e - off offs s) = off offs e by omega]

/-- Offsets of a part, moved. -/
theorem offsets_part (buf : List Nat) (n : Nat) (hn : n = buf.length) : ∀ (offs : List Nat), OffsetsOk n offs →
    ∀ (s e base : Nat), s ≤ e → e < offs.length →
    ((offs.drop s).take (e + 1 - s)).map (fun o => o - off offs s + base) =
      offsetsFrom base (((strings buf offs).drop s).take (e - s)) := by
  -- first from the start, with the amount taken away given
  have key : ∀ (m : Nat) (offs : List Nat) (a base : Nat), OffsetsOk n offs → m < offs.length → a ≤ off offs 0 →
      (offs.take (m + 1)).map (fun o => o - a + base) = offsetsFrom (off offs 0 - a + base) ((strings buf offs).take m) := by
    intro m
    induction m with
    | zero =>
      intro offs a base h hm ha
      cases offs with
      | nil => simp at hm
      | cons x rest => simp [offsetsFrom, off]
    | succ m ih =>
      intro offs a base h hm ha
      cases offs with
      | nil => simp at hm
      | cons x rest =>
        cases rest with
        | nil => simp at hm
        | cons y rest =>
          have hxy : x ≤ y := h.1
          have ha' : a ≤ x := ha
          have hb := offsetsOk_mono h.2 (i := 0) (j := 0) (Nat.le_refl _) (by simp)
          have hyl : y ≤ buf.length := by rw [← hn]; exact hb.2
          have := ih (y :: rest) a base h.2 (by simpa using hm) (by show a ≤ y; omega)
          rw [List.take_succ_cons, List.map_cons, this]
          simp only [strings, List.take_succ_cons, offsetsFrom]
          rw [List.length_take, List.length_drop]
          show _ = (x - a + base) :: offsetsFrom (x - a + base + min (y - x) (buf.length - x)) _
          rw [show x - a + base + min (y - x) (buf.length - x) = y - a + base by omega]
          rfl
  intro offs h s
  induction s generalizing offs with
  | zero =>
    intro e base _ he
    have := key e offs (off offs 0) base h he (Nat.le_refl _)
    rw [Nat.sub_self, Nat.zero_add] at this
    simpa using this
  | succ s ih =>
    intro e base hse he
    cases offs with
    | nil => simp at he
    | cons x rest =>
      cases rest with
      | nil => simp at he; omega
      | cons y rest =>
        cases e with
        | zero => omega
        | succ e =>
          have := ih (y :: rest) h.2 e base (by omega) (by simpa using he)
          rw [show e + 1 + 1 - (s + 1) = e + 1 - s by omega, show e + 1 - (s + 1) = e - s by omega]
          exact this

theorem offsetsFrom_ok (base : Nat) (l : List (List Nat)) (n : Nat) (h : base + l.flatten.length ≤ n) :
    OffsetsOk n (offsetsFrom base l) := by
  induction l generalizing base with
  | nil => simpa [offsetsFrom, OffsetsOk] using h
  | cons s l ih =>
    rw [List.flatten_cons, List.length_append] at h
    have := ih (base + s.length) (by omega)
    cases l with
    | nil => exact ⟨by omega, this⟩
    | cons t l => exact ⟨by omega, this⟩

theorem strings_offsetsFrom (pre : List Nat) (l : List (List Nat)) :
    strings (pre ++ l.flatten) (offsetsFrom pre.length l) = l := by
  induction l generalizing pre with
  | nil => rfl
  | cons s l ih =>
    have := ih (pre ++ s)
    rw [List.length_append, List.append_assoc] at this
    have hh : offsetsFrom (pre.length + s.length) l = (pre.length + s.length) :: (offsetsFrom (pre.length + s.length) l).tail := by
      cases l <;> rfl
    rw [offsetsFrom, hh, strings, ← hh, List.flatten_cons, this, List.drop_left,
      show pre.length + s.length - pre.length = s.length by omega, List.take_left]

theorem strings_offsetsFrom_zero (l : List (List Nat)) : strings l.flatten (offsetsFrom 0 l) = l := by
  have := strings_offsetsFrom [] l
  simpa using this

/-! ### The cuts -/

theorem searchLoop_ok (offs : List Nat) (last : Nat) (hl : last + 1 < offs.length)
    (hnarrow : ∀ b, last < b → b ≤ last + 2 → b < offs.length → spanSize offs last b ≤ 4096) :
    ∀ (fuel num k : Nat), num = 2 ^ k → offs.length ≤ num + fuel → last + num < offs.length →
      spanSize offs last (last + num) ≤ 4096 →
      last < searchLoop offs last fuel num ∧ searchLoop offs last fuel num < offs.length ∧
      spanSize offs last (searchLoop offs last fuel num) ≤ 4096 ∧
      (searchLoop offs last fuel num ≠ offs.length - 1 →
        ∃ k, 0 < k ∧ searchLoop offs last fuel num = last + 2 ^ k) := by
  intro fuel
  induction fuel with
  | zero => intro num k h1 h2 h3 _; omega
  | succ fuel ih =>
    intro num k hk hf hlt hsz
    have hpos : 0 < num := by rw [hk]; exact Nat.two_pow_pos k
    -- a single value is only returned when it is the last
    have hone : searchLoop offs last (fuel + 1) num = last + num → num = 1 → last + num = offs.length - 1 := by
      intro he h1
      subst h1
      rw [searchLoop] at he
      by_cases hc : offs.length ≤ last + 1 * 2
      · omega
      · rw [if_neg hc, if_pos (hnarrow (last + 1 * 2) (by omega) (by omega) (by omega))] at he
        -- the search goes on from two values
        exfalso
        have hge : ∀ (fuel num : Nat), 2 ≤ num → last + num < offs.length → last + 2 ≤ searchLoop offs last fuel num := by
          intro fuel
          induction fuel with
          | zero => intro num h2 _; rw [searchLoop]; omega
          | succ fuel ih2 =>
            intro num h2 h3
            rw [searchLoop]
            split
            · split <;> omega
            · split
              · exact ih2 _ (by omega) (by omega)
              · omega
        have := hge fuel (1 * 2) (by omega) (by omega)
        omega
    have hdone : searchLoop offs last (fuel + 1) num = last + num →
        last < searchLoop offs last (fuel + 1) num ∧ searchLoop offs last (fuel + 1) num < offs.length ∧
        spanSize offs last (searchLoop offs last (fuel + 1) num) ≤ 4096 ∧
        (searchLoop offs last (fuel + 1) num ≠ offs.length - 1 →
          ∃ k, 0 < k ∧ searchLoop offs last (fuel + 1) num = last + 2 ^ k) := by
      intro he
      refine ⟨by omega, by omega, by rw [he]; exact hsz, ?_⟩
      intro hne
      refine ⟨k, ?_, by omega⟩
      rcases Nat.eq_zero_or_pos k with h0 | h0
      · subst h0
        have := hone he hk
        omega
      · exact h0
    by_cases hc : offs.length ≤ last + num * 2
    · by_cases hc2 : spanSize offs last (offs.length - 1) ≤ 4096
      · have he : searchLoop offs last (fuel + 1) num = offs.length - 1 := by rw [searchLoop, if_pos hc, if_pos hc2]
        rw [he]
        exact ⟨by omega, by omega, hc2, fun h => absurd rfl h⟩
      · exact hdone (by rw [searchLoop, if_pos hc, if_neg hc2])
    · by_cases hc2 : spanSize offs last (last + num * 2) ≤ 4096
      · have he : searchLoop offs last (fuel + 1) num = searchLoop offs last fuel (num * 2) := by
          rw [searchLoop, if_neg hc, if_pos hc2]
        rw [he]
        exact ih (num * 2) (k + 1) (by rw [hk, Nat.pow_succ]) (by omega) (by omega) hc2
      · exact hdone (by rw [searchLoop, if_neg hc, if_neg hc2])

/-- Ranges that follow each other from `a` to `n`, all but the last of a power of two. -/
def Chain (offs : List Nat) (n : Nat) : Nat → List (Nat × Nat) → Prop
  | _, [] => False
  | a, [(s, e)] => s = a ∧ e = n ∧ a < n ∧ spanSize offs s e ≤ 4096
  | a, (s, e) :: r :: rest => s = a ∧ a < e ∧ e < n ∧ spanSize offs s e ≤ 4096 ∧ (∃ k, 0 < k ∧ e = s + 2 ^ k) ∧
      Chain offs n e (r :: rest)

theorem cutLoop_ok (offs : List Nat)
    (hnarrow : ∀ a b, a < b → b ≤ a + 2 → b < offs.length → spanSize offs a b ≤ 4096) :
    ∀ (fuel last : Nat), last + 1 < offs.length → offs.length ≤ last + 1 + fuel →
      ∃ rs, cutLoop offs fuel last = some rs ∧ Chain offs (offs.length - 1) last rs := by
  intro fuel
  induction fuel with
  | zero => intro last h1 h2; omega
  | succ fuel ih =>
    intro last h1 h2
    obtain ⟨s1, s2, s3, s4⟩ := searchLoop_ok offs last h1 (fun b => hnarrow last b) offs.length 1 0 rfl (by omega) (by omega)
      (hnarrow last (last + 1) (by omega) (by omega) h1)
    rw [cutLoop]
    by_cases hc : searchLoop offs last offs.length 1 = offs.length - 1
    · simp only [hc, if_true]
      exact ⟨_, rfl, rfl, rfl, by omega, by rw [← hc]; exact s3⟩
    · simp only [hc, if_false]
      obtain ⟨rs, h3, h4⟩ := ih (searchLoop offs last offs.length 1) (by omega) (by omega)
      rw [h3]
      refine ⟨_, rfl, ?_⟩
      cases rs with
      | nil => exact absurd h4 (by simp [Chain])
      | cons r rest => exact ⟨rfl, s1, by omega, s3, s4 hc, h4⟩

theorem trailingZeros_pow (k : Nat) : ∀ fuel, k < fuel → trailingZeros fuel (2 ^ k) = k := by
  induction k with
  | zero =>
    intro fuel h
    cases fuel with
    | zero => omega
    | succ fuel => rw [trailingZeros]; rfl
  | succ k ih =>
    intro fuel h
    cases fuel with
    | zero => omega
    | succ fuel =>
      rw [trailingZeros, Nat.pow_succ, if_neg (by omega), Nat.mul_div_cancel _ (by omega), ih fuel (by omega)]

/-! ### The bytes of a chunk -/

theorem un32s_flatMap (l : List Nat) (h : ∀ x ∈ l, x < 2 ^ 32) (rest : List Nat) :
    un32s (l.flatMap le32 ++ rest) = l ++ un32s rest := by
  induction l with
  | nil => rfl
  | cons a l ih =>
    have ha := h a List.mem_cons_self
    have := ih (fun x hx => h x (List.mem_cons_of_mem _ hx))
    simp only [List.flatMap_cons, le32, List.cons_append, List.nil_append, un32s]
    rw [this]
    congr 1
    omega

theorem flatMap_le32_length (l : List Nat) : (l.flatMap le32).length = 4 * l.length := by
  induction l with
  | nil => rfl
  | cons a l ih => rw [List.flatMap_cons, List.length_append, ih, List.length_cons]; simp [le32]; omega

theorem offsetsFrom_le (base : Nat) (l : List (List Nat)) : ∀ x ∈ offsetsFrom base l, x ≤ base + l.flatten.length := by
  induction l generalizing base with
  | nil => intro x hx; simp [offsetsFrom] at hx; omega
  | cons s l ih =>
    intro x hx
    rw [List.flatten_cons, List.length_append]
    rcases List.mem_cons.mp hx with h | h
    · omega
    · have := ih _ x h; omega

theorem off_offsetsFrom_zero (base : Nat) (l : List (List Nat)) : off (offsetsFrom base l) 0 = base := by
  cases l <;> rfl

theorem off_offsetsFrom_last (base : Nat) (l : List (List Nat)) : off (offsetsFrom base l) l.length = base + l.flatten.length := by
  induction l generalizing base with
  | nil => rfl
  | cons s l ih =>
    rw [List.flatten_cons, List.length_append, List.length_cons, offsetsFrom]
    show off (offsetsFrom (base + s.length) l) l.length = _
    rw [ih]; omega

theorem offsetsFrom_map_sub (base : Nat) (l : List (List Nat)) (b : Nat) :
    (offsetsFrom (base + b) l).map (fun o => o - b) = offsetsFrom base l := by
  induction l generalizing base with
  | nil => simp [offsetsFrom]
  | cons s l ih =>
    rw [offsetsFrom, List.map_cons, show base + b + s.length = (base + s.length) + b by omega, ih, offsetsFrom]
    congr 1; omega

/-- The bytes of a chunk of strings `l`, in general. -/
def blockBytes (l : List (List Nat)) : List Nat :=
  let body := (offsetsFrom ((l.length + 1) * 4) l).flatMap le32 ++ l.flatten
  body ++ List.replicate ((4 - body.length % 4) % 4) 72

theorem spanBytes_eq (buf offs : List Nat) (h : OffsetsOk buf.length offs) (s e : Nat) (hse : s ≤ e) (he : e < offs.length) :
    spanBytes buf offs (s, e) = blockBytes (((strings buf offs).drop s).take (e - s)) := by
  have hl : (((strings buf offs).drop s).take (e - s)).length = e - s := by
    rw [List.length_take, List.length_drop, strings_length]; omega
  unfold spanBytes blockBytes
  simp only
  rw [offsets_part buf _ rfl offs h s e ((e - s + 1) * 4) hse he, ← strings_slice buf _ rfl offs h s e hse he, hl]

theorem blockBytes_length (l : List (List Nat)) :
    (blockBytes l).length = ((l.length + 1) * 4 + l.flatten.length + 3) / 4 * 4 := by
  unfold blockBytes
  simp only [List.length_append, List.length_replicate, flatMap_le32_length, Fsst.length_offsetsFrom]
  omega

theorem binaryDecompress_ok (l : List (List Nat)) (hne : l ≠ []) (hs : (blockBytes l).length < 2 ^ 32) :
    binaryDecompress (blockBytes l) l.length = some (l.flatten, offsetsFrom 0 l) := by
  have hpos : 0 < l.length := List.length_pos_iff.mpr hne
  have hlen := blockBytes_length l
  have hsmall : ∀ x ∈ offsetsFrom ((l.length + 1) * 4) l, x < 2 ^ 32 := by
    intro x hx
    have := offsetsFrom_le _ _ x hx
    omega
  have hol := Fsst.length_offsetsFrom ((l.length + 1) * 4) l
  have hun : ∃ rest, un32s (blockBytes l) = offsetsFrom ((l.length + 1) * 4) l ++ rest := by
    unfold blockBytes
    simp only [List.append_assoc]
    exact ⟨_, un32s_flatMap _ hsmall _⟩
  obtain ⟨rest, hun⟩ := hun
  have htake : (un32s (blockBytes l)).take (l.length + 1) = offsetsFrom ((l.length + 1) * 4) l := by
    rw [hun, List.take_left' hol]
  unfold binaryDecompress
  rw [if_pos ⟨by omega, by omega, by rw [hun, List.length_append, hol]; omega⟩]
  simp only [htake, off_offsetsFrom_zero, off_offsetsFrom_last]
  have hsl : slice (blockBytes l) ((l.length + 1) * 4, (l.length + 1) * 4 + l.flatten.length) = some l.flatten := by
    unfold slice
    simp only
    rw [if_pos ⟨by omega, by omega⟩]
    congr 1
    unfold blockBytes
    simp only
    rw [List.append_assoc, List.drop_left' (by rw [flatMap_le32_length, hol]; omega),
      show (l.length + 1) * 4 + l.flatten.length - (l.length + 1) * 4 = l.flatten.length by omega, List.take_left]
  rw [hsl]
  simp only [Option.map_some]
  have := offsetsFrom_map_sub 0 l ((l.length + 1) * 4)
  rw [Nat.zero_add] at this
  rw [this]

end Verif.Mini
