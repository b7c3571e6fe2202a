import Verif.Cleanup.Model
/-! Lemmas about path segments and the tag store. -/
namespace Verif.Cleanup
open Verif.Naming (Name)

theorem utf8_inj {a b : Name} (h : a.flatMap String.utf8EncodeChar = b.flatMap String.utf8EncodeChar) : a = b := by
  have e : a.utf8Encode = b.utf8Encode := by simp only [List.utf8Encode, h]
  have h1 := @List.utf8Decode?_utf8Encode a
  rw [e, @List.utf8Decode?_utf8Encode b] at h1
  have := Option.some.inj h1
  simpa using this.symm

theorem ofNat_toNat_small {m : Nat} (hm : m < 127) : (Char.ofNat m).toNat = m := by
  unfold Char.ofNat
  rw [dif_pos (Or.inl (by omega))]
  simp [Char.ofNatAux, Char.toNat]

theorem ofNat_inj {m n : Nat} (hm : m < 127) (hn : n < 127) (h : Char.ofNat m = Char.ofNat n) : m = n := by
  rw [← ofNat_toNat_small hm, ← ofNat_toNat_small hn, h]

theorem hexDigit_inj {m n : Nat} (hm : m < 16) (hn : n < 16) (h : hexDigit m = hexDigit n) : m = n := by
  unfold hexDigit at h
  split at h <;> split at h <;> have := ofNat_inj (by omega) (by omega) h <;> omega

theorem encByte_plain {b : UInt8} (h : 32 ≤ b.toNat ∧ b.toNat < 127 ∧ Char.ofNat b.toNat ∉ reserved) :
    encByte b = [Char.ofNat b.toNat] := if_pos h

theorem encByte_append_inj {a b : UInt8} {x y : Name} (h : encByte a ++ x = encByte b ++ y) : a = b ∧ x = y := by
  have pct : ∀ c : UInt8, (32 ≤ c.toNat ∧ c.toNat < 127 ∧ Char.ofNat c.toNat ∉ reserved) →
      Char.ofNat c.toNat ≠ '%' := by
    intro c hc e
    apply hc.2.2
    rw [e]; decide
  unfold encByte at h
  split at h <;> split at h
  · rename_i ha hb
    simp only [List.cons_append, List.nil_append, List.cons.injEq] at h
    exact ⟨UInt8.toNat_inj.1 (ofNat_inj ha.2.1 hb.2.1 h.1), h.2⟩
  · rename_i ha hb
    simp only [List.cons_append, List.nil_append, List.cons.injEq] at h
    exact absurd h.1 (pct a ha)
  · rename_i ha hb
    simp only [List.cons_append, List.nil_append, List.cons.injEq] at h
    exact absurd h.1.symm (pct b hb)
  · simp only [List.cons_append, List.nil_append, List.cons.injEq] at h
    obtain ⟨_, h1, h2, h3⟩ := h
    have la := a.toNat_lt
    have lb := b.toNat_lt
    have e1 := hexDigit_inj (by omega) (by omega) h1
    have e2 := hexDigit_inj (by omega) (by omega) h2
    exact ⟨UInt8.toNat_inj.1 (by omega), h3⟩

theorem encByte_ne_nil (b : UInt8) : encByte b ≠ [] := by
  unfold encByte; split <;> simp

theorem flatMap_encByte_inj : ∀ {a b : List UInt8}, a.flatMap encByte = b.flatMap encByte → a = b
  | [], [], _ => rfl
  | [], b :: bs, h => by
    simp only [List.flatMap_nil, List.flatMap_cons] at h
    exact absurd (List.append_eq_nil_iff.1 h.symm).1 (encByte_ne_nil b)
  | a :: as, [], h => by
    simp only [List.flatMap_nil, List.flatMap_cons] at h
    exact absurd (List.append_eq_nil_iff.1 h).1 (encByte_ne_nil a)
  | a :: as, b :: bs, h => by
    simp only [List.flatMap_cons] at h
    obtain ⟨h1, h2⟩ := encByte_append_inj h
    rw [h1, flatMap_encByte_inj h2]

theorem pathPart_inj {a b : Name} (h : pathPart a = pathPart b) : a = b := utf8_inj (flatMap_encByte_inj h)

theorem tagPath_inj {a b : Name} (h : tagPath a = tagPath b) : a = b := by
  simp only [tagPath, List.cons.injEq, and_true, true_and] at h
  exact List.append_cancel_right (pathPart_inj h)

/-- Characters a path segment keeps. -/
def plain (c : Char) : Bool := decide (32 ≤ c.toNat) && decide (c.toNat < 127) && decide (c ∉ reserved)

theorem utf8_ascii {c : Char} (h : c.toNat < 128) : String.utf8EncodeChar c = [UInt8.ofNat c.toNat] := by
  have : c.utf8Size = 1 := by
    rw [Char.utf8Size_eq_one_iff]
    show c.val.toNat ≤ 127
    have : c.val.toNat = c.toNat := rfl
    omega
  rw [String.utf8EncodeChar_eq_singleton this]
  rfl

theorem encByte_ascii {c : Char} (h : plain c = true) : encByte (UInt8.ofNat c.toNat) = [c] := by
  simp only [plain, Bool.and_eq_true, decide_eq_true_eq] at h
  have e : (UInt8.ofNat c.toNat).toNat = c.toNat := by
    simp only [UInt8.toNat_ofNat']
    omega
  have e2 : Char.ofNat c.toNat = c := Char.ofNat_toNat c
  rw [encByte_plain]
  · rw [e, e2]
  · rw [e, e2]; exact ⟨h.1.1, h.1.2, h.2⟩

theorem pathPart_plain : ∀ {n : Name}, (∀ c ∈ n, plain c = true) → pathPart n = n
  | [], _ => rfl
  | c :: cs, h => by
    have hc := h c (List.mem_cons_self ..)
    have ih := pathPart_plain (fun d hd => h d (List.mem_cons_of_mem c hd))
    have hlt : c.toNat < 128 := by
      simp only [plain, Bool.and_eq_true, decide_eq_true_eq] at hc; omega
    simp only [pathPart, List.flatMap_cons, List.flatMap_append] at ih ⊢
    rw [ih, utf8_ascii hlt]
    simp [encByte_ascii hc]

/-! ## The store -/

theorem get_put_same (s : TagSt) (p : Path) (v : Nat) : (s.put p v).get p = some v := by
  simp [TagSt.get, TagSt.put]

theorem find_filter_ne (l : List (Path × Nat)) {p q : Path} (h : q ≠ p) :
    (l.filter (fun e => e.1 ≠ p)).find? (fun e => e.1 = q) = l.find? (fun e => e.1 = q) := by
  induction l with
  | nil => rfl
  | cons e l ih =>
    by_cases he : e.1 = p
    · have : ¬ e.1 = q := fun e' => h (e'.symm.trans he)
      rw [List.filter_cons_of_neg (by simp [he]), ih, List.find?_cons_of_neg (by simp [this])]
    · rw [List.filter_cons_of_pos (by simp [he])]
      by_cases hq : e.1 = q
      · rw [List.find?_cons_of_pos (by simp [hq]), List.find?_cons_of_pos (by simp [hq])]
      · rw [List.find?_cons_of_neg (by simp [hq]), List.find?_cons_of_neg (by simp [hq]), ih]

theorem get_put_other (s : TagSt) {p q : Path} (v : Nat) (h : q ≠ p) : (s.put p v).get q = s.get q := by
  simp only [TagSt.get, TagSt.put]
  rw [List.find?_cons_of_neg (by simp [Ne.symm h]), find_filter_ne _ h]

theorem get_remove_same (s : TagSt) (p : Path) : (s.remove p).get p = none := by
  simp only [TagSt.get, TagSt.remove, Option.map_eq_none_iff, List.find?_eq_none]
  intro e he
  have := (List.mem_filter.1 he).2
  simpa using this

theorem get_remove_other (s : TagSt) {p q : Path} (h : q ≠ p) : (s.remove p).get q = s.get q := by
  simp only [TagSt.get, TagSt.remove, find_filter_ne _ h]

end Verif.Cleanup
