import Verif.Naming.Model
/-! Helper lemmas about names of version files. -/
namespace Verif.Naming

theorem digitChar_toNat {d : Nat} (h : d < 10) : (digitChar d).toNat = 48 + d := by
  have : d = 0 ∨ d = 1 ∨ d = 2 ∨ d = 3 ∨ d = 4 ∨ d = 5 ∨ d = 6 ∨ d = 7 ∨ d = 8 ∨ d = 9 := by omega
  rcases this with h | h | h | h | h | h | h | h | h | h <;> subst h <;> decide

theorem digitVal_digitChar {d : Nat} (h : d < 10) : digitVal (digitChar d) = some d := by
  unfold digitVal
  rw [digitChar_toNat h, if_pos ⟨by omega, by omega⟩]
  congr 1
  omega

theorem digitChar_inj {d e : Nat} (hd : d < 10) (he : e < 10) (h : digitChar d = digitChar e) : d = e := by
  have := congrArg Char.toNat h
  rw [digitChar_toNat hd, digitChar_toNat he] at this
  omega

def IsDigit (c : Char) : Prop := 48 ≤ c.toNat ∧ c.toNat ≤ 57

theorem isDigit_digitChar {d : Nat} (h : d < 10) : IsDigit (digitChar d) := by
  unfold IsDigit; rw [digitChar_toNat h]; omega

theorem isDigit_ne {c x : Char} (h : IsDigit c) (hx : ¬ (48 ≤ x.toNat ∧ x.toNat ≤ 57)) : c ≠ x := by
  intro e; subst e; exact hx h

theorem showNat_digits (n : Nat) : ∀ c ∈ showNat n, IsDigit c := by
  induction n using Nat.strongRecOn with
  | _ n ih =>
    unfold showNat
    split
    · intro c hc
      rw [List.mem_singleton] at hc
      subst hc
      exact isDigit_digitChar (by assumption)
    · intro c hc
      rcases List.mem_append.1 hc with h | h
      · exact ih _ (by omega) c h
      · rw [List.mem_singleton] at h
        subst h
        exact isDigit_digitChar (by omega)

theorem showNat_ne_nil (n : Nat) : showNat n ≠ [] := by
  unfold showNat
  split <;> simp

theorem parseDigits_append (acc : Nat) (x : Name) (c : Char) :
    parseDigits acc (x ++ [c]) = (parseDigits acc x).bind (fun a => parseDigits a [c]) := by
  induction x generalizing acc with
  | nil => simp [parseDigits]
  | cons y ys ih =>
    simp only [List.cons_append, parseDigits]
    cases digitVal y with
    | none => rfl
    | some d =>
      simp only
      split
      · rw [ih]; simp [parseDigits]
      · rfl

theorem parseDigits_showNat {n : Nat} (h : n < 18446744073709551616) : parseDigits 0 (showNat n) = some n := by
  induction n using Nat.strongRecOn with
  | _ n ih =>
    unfold showNat
    split
    · rename_i h10
      simp only [parseDigits, digitVal_digitChar h10]
      rw [if_pos (by omega)]
      congr 1; omega
    · rw [parseDigits_append, ih _ (by omega) (by omega)]
      have hd : n % 10 < 10 := by omega
      simp only [Option.bind_some, parseDigits, digitVal_digitChar hd]
      rw [if_pos (by omega)]
      congr 1; omega

/-- Fixed-width decimal. -/
def digitsW : Nat → Nat → Name
  | 0, _ => []
  | k + 1, n => digitsW k (n / 10) ++ [digitChar (n % 10)]

theorem digitsW_length (k n : Nat) : (digitsW k n).length = k := by
  induction k generalizing n with
  | zero => rfl
  | succ k ih => simp [digitsW, ih]

theorem digitsW_digits (k n : Nat) : ∀ c ∈ digitsW k n, IsDigit c := by
  induction k generalizing n with
  | zero => intro c hc; cases hc
  | succ k ih =>
    intro c hc
    rcases List.mem_append.1 hc with h | h
    · exact ih _ c h
    · rw [List.mem_singleton] at h
      subst h
      exact isDigit_digitChar (by omega)

theorem digitsW_zero (k : Nat) : digitsW k 0 = List.replicate k '0' := by
  induction k with
  | zero => rfl
  | succ k ih =>
    have : digitsW (k + 1) 0 = digitsW k 0 ++ ['0'] := by
      simp only [digitsW, Nat.zero_div, Nat.zero_mod]
      rfl
    rw [this, ih, ← List.replicate_succ']

theorem showNat_length_le {k n : Nat} (hk : 0 < k) (h : n < 10 ^ k) : (showNat n).length ≤ k := by
  induction k generalizing n with
  | zero => omega
  | succ k ih =>
    unfold showNat
    split
    · simp
    · rename_i h10
      cases k with
      | zero => simp at h; omega
      | succ k =>
        have := ih (n := n / 10) (by omega) (by rw [Nat.pow_succ] at h; omega)
        simp only [List.length_append, List.length_singleton]
        omega

theorem pad_showNat {k n : Nat} (hk : 0 < k) (h : n < 10 ^ k) :
    List.replicate (k - (showNat n).length) '0' ++ showNat n = digitsW k n := by
  induction k generalizing n with
  | zero => omega
  | succ k ih =>
    by_cases h10 : n < 10
    · have h1 : showNat n = [digitChar n] := by rw [showNat, if_pos h10]
      rw [h1]
      have h2 : n / 10 = 0 := by omega
      have h3 : n % 10 = n := by omega
      simp [digitsW, h2, h3, digitsW_zero]
    · cases k with
      | zero => simp at h; omega
      | succ k =>
        have hlt : n / 10 < 10 ^ (k + 1) := by rw [Nat.pow_succ] at h; omega
        have hr := ih (n := n / 10) (by omega) hlt
        have h1 : showNat n = showNat (n / 10) ++ [digitChar (n % 10)] := by
          rw [showNat, if_neg h10]
        rw [h1, digitsW, ← hr]
        have hl : (showNat (n / 10) ++ [digitChar (n % 10)]).length = (showNat (n / 10)).length + 1 := by simp
        rw [hl, Nat.add_sub_add_right, List.append_assoc]

theorem showPadded_eq {n : Nat} (h : n < 18446744073709551616) : showPadded n = digitsW 20 n :=
  pad_showNat (by omega) (by omega)

theorem parseDigits_digitsW {k n : Nat} (h : n < 10 ^ k) (h64 : n < 18446744073709551616) :
    parseDigits 0 (digitsW k n) = some n := by
  induction k generalizing n with
  | zero => simp at h; subst h; rfl
  | succ k ih =>
    rw [digitsW, parseDigits_append, ih (by rw [Nat.pow_succ] at h; omega) (by omega)]
    have hd : n % 10 < 10 := by omega
    simp only [Option.bind_some, parseDigits, digitVal_digitChar hd]
    rw [if_pos (by omega)]
    congr 1; omega

theorem parseU64_digits {x : Name} (hne : x ≠ []) (h : ∀ c ∈ x, IsDigit c) : parseU64 x = parseDigits 0 x := by
  cases x with
  | nil => exact absurd rfl hne
  | cons c cs =>
    have : c ≠ '+' := isDigit_ne (h c (List.mem_cons_self ..)) (by decide)
    simp [parseU64, this]

theorem beforeDot_append {x : Name} (h : '.' ∉ x) (y : Name) : beforeDot (x ++ '.' :: y) = some x := by
  unfold beforeDot
  rw [if_pos (by simp)]
  congr 1
  rw [List.takeWhile_append_of_pos]
  · simp
  · intro c hc
    have : c ≠ '.' := fun e => h (e ▸ hc)
    simpa using this

theorem no_dot {x : Name} (h : ∀ c ∈ x, IsDigit c) : '.' ∉ x := fun hm => by
  have := h _ hm
  exact absurd this (by unfold IsDigit; decide)

theorem showNat_length_19 {v : Nat} (h : v < 9223372036854775808) : (showNat v).length ≤ 19 :=
  showNat_length_le (by omega) (by omega)

/-! ### Lexicographic order -/

/-- Byte-wise lexicographic order, as object stores list. -/
def lexLt : Name → Name → Bool
  | [], [] => false
  | [], _ :: _ => true
  | _ :: _, [] => false
  | a :: as, b :: bs => decide (a.toNat < b.toNat) || (decide (a = b) && lexLt as bs)

theorem lexLt_append {x y s t : Name} (h : x.length = y.length) :
    lexLt (x ++ s) (y ++ t) = true ↔ lexLt x y = true ∨ (x = y ∧ lexLt s t = true) := by
  induction x generalizing y with
  | nil =>
    cases y with
    | nil => simp [lexLt]
    | cons b bs => simp at h
  | cons a as ih =>
    cases y with
    | nil => simp at h
    | cons b bs =>
      have hl : as.length = bs.length := by simpa using h
      simp only [List.cons_append, lexLt, Bool.or_eq_true, decide_eq_true_eq, Bool.and_eq_true, ih hl,
        List.cons.injEq]
      grind

theorem digitsW_inj {k a b : Nat} (ha : a < 10 ^ k) (hb : b < 10 ^ k) : digitsW k a = digitsW k b ↔ a = b := by
  refine ⟨fun h => ?_, fun h => h ▸ rfl⟩
  induction k generalizing a b with
  | zero => simp at ha hb; omega
  | succ k ih =>
    rw [Nat.pow_succ] at ha hb
    simp only [digitsW] at h
    have h' := List.append_inj' h rfl
    have h1 := ih (by omega) (by omega) h'.1
    have h2 := digitChar_inj (by omega) (by omega) (List.cons.inj h'.2).1
    omega

theorem digitsW_lt {k a b : Nat} (ha : a < 10 ^ k) (hb : b < 10 ^ k) :
    lexLt (digitsW k a) (digitsW k b) = true ↔ a < b := by
  induction k generalizing a b with
  | zero => simp at ha hb; subst ha hb; simp [digitsW, lexLt]
  | succ k ih =>
    rw [Nat.pow_succ] at ha hb
    simp only [digitsW]
    rw [lexLt_append (by simp [digitsW_length]), ih (by omega) (by omega), digitsW_inj (by omega) (by omega)]
    simp only [lexLt, Bool.and_false, Bool.or_false, decide_eq_true_eq,
      digitChar_toNat (show a % 10 < 10 by omega), digitChar_toNat (show b % 10 < 10 by omega)]
    omega

end Verif.Naming
