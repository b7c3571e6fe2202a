import Verif.Bitpack.Lemmas

/-! # Numbers and their bits, and what a page has; these do not depend on the model -/

namespace Verif.Bitpack

/-- The number of the bits of a list, the lowest first. -/
def natOf : List Bool → Nat
  | [] => 0
  | x :: l => (if x then 1 else 0) + 2 * natOf l

/-- The number in two's complement. -/
def intOf (signed : Bool) (l : List Bool) : Int := if signed && l.getLast?.getD false then (natOf l : Int) - 2 ^ l.length else natOf l

/-- The lowest `b` bits of a number. -/
def natBits : Nat → Nat → List Bool
  | 0, _ => []
  | b + 1, n => (n % 2 == 1) :: natBits b (n / 2)

/-- The lowest `b` bits of a number in two's complement. -/
def intBits (b : Nat) (x : Int) : List Bool := natBits b (x % 2 ^ b).toNat

/-- A page that has the numbers, with some bits after them up to the end of a byte. -/
def pageOf (b : Nat) (xs : List Int) (pad : List Bool) : List Bool := (xs.map (intBits b)).flatten ++ pad

/-- The number can be stored with `b` bits. -/
def FitsBits (b : Nat) (signed : Bool) (x : Int) : Prop := if signed then -(2 ^ (b - 1) : Int) ≤ x ∧ x < 2 ^ (b - 1) else 0 ≤ x ∧ x < 2 ^ b

/-- The rows of the ranges. -/
def rowsOf {α : Type} (xs : List α) (ranges : List (Nat × Nat)) : List α := ranges.flatMap (fun r => (xs.drop r.1).take (r.2 - r.1))

theorem natBits_length : ∀ b n, (natBits b n).length = b := by
  intro b
  induction b with
  | zero => intro _; rfl
  | succ b ih => intro n; simp [natBits, ih]

theorem natOf_natBits : ∀ b n, natOf (natBits b n) = n % 2 ^ b := by
  intro b
  induction b with
  | zero => intro n; simp [natBits, natOf, Nat.mod_one]
  | succ b ih =>
    intro n
    unfold natBits natOf
    rw [ih, show 2 ^ (b + 1) = 2 * 2 ^ b by rw [Nat.pow_succ, Nat.mul_comm], Nat.mod_mul]
    split <;> simp_all <;> omega

theorem natOf_append : ∀ l m, natOf (l ++ m) = natOf l + 2 ^ l.length * natOf m := by
  intro l m
  induction l with
  | nil => simp [natOf]
  | cons x l ih =>
    rw [List.cons_append, natOf, natOf, ih, List.length_cons, Nat.pow_succ, Nat.mul_add, ← Nat.mul_assoc, Nat.mul_comm (2 ^ l.length) 2, Nat.add_assoc]

theorem natOf_false : ∀ n, natOf (List.replicate n false) = 0 := by
  intro n
  induction n with
  | zero => rfl
  | succ n ih => simp [List.replicate_succ, natOf, ih]

theorem natOf_true : ∀ n, natOf (List.replicate n true) + 1 = 2 ^ n := by
  intro n
  induction n with
  | zero => rfl
  | succ n ih =>
    rw [List.replicate_succ, natOf, Nat.pow_succ, ← ih]
    simp
    omega

theorem natOf_lt : ∀ l, natOf l < 2 ^ l.length := by
  intro l
  induction l with
  | nil => simp [natOf]
  | cons x l ih =>
    rw [natOf, List.length_cons, Nat.pow_succ]
    split <;> omega

/-- The bits after the sign do not change the number. -/
theorem intOf_widen (u : Nat) (signed : Bool) (v : List Bool) (hne : v ≠ []) : intOf signed (widen u signed v) = intOf signed v := by
  unfold widen
  cases hx : signed && v.getLast?.getD false with
  | false =>
    have h1 : natOf (v ++ List.replicate (u - v.length) false) = natOf v := by rw [natOf_append, natOf_false]; simp
    have h2 : (signed && (v ++ List.replicate (u - v.length) false).getLast?.getD false) = false := by
      rw [List.getLast?_append]
      cases h : (List.replicate (u - v.length) false).getLast? with
      | none => simpa using hx
      | some y =>
        have := List.eq_of_mem_replicate (List.mem_of_getLast? h)
        simp [this]
    unfold intOf
    rw [h1, h2, hx]
    rfl
  | true =>
    obtain ⟨hs, hl⟩ := Bool.and_eq_true_iff.mp hx
    have h1 : natOf (v ++ List.replicate (u - v.length) true) = natOf v + 2 ^ v.length * natOf (List.replicate (u - v.length) true) := natOf_append _ _
    have h2 : (signed && (v ++ List.replicate (u - v.length) true).getLast?.getD false) = true := by
      rw [List.getLast?_append, hs]
      cases h : (List.replicate (u - v.length) true).getLast? with
      | none => simpa using hl
      | some y =>
        have := List.eq_of_mem_replicate (List.mem_of_getLast? h)
        simp [this]
    unfold intOf
    rw [h2, hx, h1]
    simp only [if_true, List.length_append, List.length_replicate]
    have h3 := natOf_true (u - v.length)
    have h4 : (2 : Int) ^ (v.length + (u - v.length)) = 2 ^ v.length * (natOf (List.replicate (u - v.length) true) + 1 : Int) := by
      rw [Int.pow_add]
      congr 1
      exact_mod_cast h3.symm
    rw [h4, Int.mul_add]
    simp only [Int.natCast_add, Int.natCast_mul, Int.natCast_pow]
    have : ((2 : Nat) : Int) = 2 := rfl
    rw [this]
    omega

/-- A number that fits is that of its bits. -/
theorem intOf_intBits (b : Nat) (hb : 0 < b) (signed : Bool) (x : Int) (h : FitsBits b signed x) : intOf signed (intBits b x) = x := by
  have hp : (2 : Int) ^ b = 2 * 2 ^ (b - 1) := by
    conv => lhs; rw [show b = (b - 1) + 1 by omega]
    rw [Int.pow_succ, Int.mul_comm]
  have hpos : (0 : Int) < 2 ^ (b - 1) := Int.pow_pos (by decide)
  have hcast : ((2 ^ b : Nat) : Int) = 2 ^ b := by simp
  have hcast' : ((2 ^ (b - 1) : Nat) : Int) = 2 ^ (b - 1) := by simp
  have hmod : 0 ≤ x % 2 ^ b ∧ x % 2 ^ b < 2 ^ b := ⟨Int.emod_nonneg _ (by omega), Int.emod_lt_of_pos _ (by omega)⟩
  have hn : (natOf (intBits b x) : Int) = x % 2 ^ b := by
    unfold intBits
    rw [natOf_natBits, Nat.mod_eq_of_lt (by omega)]
    omega
  have hlen : (intBits b x).length = b := natBits_length _ _
  unfold intOf
  rw [hlen, hn]
  cases signed with
  | false =>
    unfold FitsBits at h
    simp only [Bool.false_eq_true, if_false] at h
    simp only [Bool.false_and, Bool.false_eq_true, if_false]
    exact Int.emod_eq_of_lt h.1 h.2
  | true =>
    unfold FitsBits at h
    simp only [if_true] at h
    have hlast : ∀ l : List Bool, 0 < l.length → (l.getLast?.getD false = true ↔ 2 ^ (l.length - 1) ≤ natOf l) := by
      intro l hl
      induction l with
      | nil => simp at hl
      | cons y l ih =>
        cases l with
        | nil => cases y <;> simp [natOf]
        | cons z l =>
          rw [List.getLast?_cons_cons, ih (by simp), show natOf (y :: z :: l) = (if y then 1 else 0) + 2 * natOf (z :: l) from rfl]
          simp only [List.length_cons, Nat.add_sub_cancel, Nat.pow_succ]
          split <;> omega
    have hl := hlast (intBits b x) (by omega)
    rw [hlen] at hl
    simp only [Bool.true_and]
    split
    · rename_i hc
      have h1 := hl.mp hc
      have h2 : x < 0 := by
        false_or_by_contra
        rename_i h0
        rw [Int.emod_eq_of_lt (by omega) (by omega)] at hn
        omega
      have h3 : x % 2 ^ b = x + 2 ^ b := by
        rw [← Int.add_emod_right, Int.emod_eq_of_lt (by omega) (by omega)]
      omega
    · rename_i hc
      have h1 : ¬ 2 ^ (b - 1) ≤ natOf (intBits b x) := fun h => hc (hl.mpr h)
      have h2 : 0 ≤ x := by
        false_or_by_contra
        rename_i h0
        have h3 : x % 2 ^ b = x + 2 ^ b := by
          rw [← Int.add_emod_right, Int.emod_eq_of_lt (by omega) (by omega)]
        omega
      exact Int.emod_eq_of_lt h2 (by omega)

end Verif.Bitpack
