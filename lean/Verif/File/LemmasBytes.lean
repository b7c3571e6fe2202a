import Verif.File.Model

/-! Bytes: ranges, little-endian integers, tables and the footer. -/
namespace Verif.File
open Verif.RowIds.Serde (leBytes fromLe)

theorem pad_spec (n : Nat) : pad n = (64 - n % 64) % 64 := by
  unfold pad
  have h : ∀ x, x &&& 63 = x % 64 := fun x => Nat.and_two_pow_sub_one_eq_mod x 6
  rw [h, h]

theorem add_pad (n : Nat) : (n + pad n) % 64 = 0 := by rw [pad_spec]; omega

theorem padded_length (b : Bytes) : (padded b).length = b.length + pad b.length := by simp [padded]

theorem padded_aligned (b : Bytes) : (padded b).length % 64 = 0 := by rw [padded_length]; exact add_pad _

theorem pad_zero {n : Nat} (h : n % 64 = 0) : pad n = 0 := by rw [pad_spec]; omega

theorem leBytes_length : ∀ (n x : Nat), (leBytes n x).length = n
  | 0, _ => rfl
  | n + 1, x => by rw [leBytes, List.length_cons, leBytes_length n]

theorem fromLe_leBytes : ∀ (n x : Nat), x < 256 ^ n → fromLe (leBytes n x) = x
  | 0, x, h => by
    have : x = 0 := by simpa using h
    subst this
    rfl
  | n + 1, x, h => by
    rw [leBytes, fromLe, fromLe_leBytes n (x / 256) (by
      rw [Nat.div_lt_iff_lt_mul (by decide)]
      rw [Nat.pow_succ] at h
      exact h)]
    omega

/-- The part of the file that a descriptor of a buffer refers to. -/
def bufAt (file : Bytes) (e : Nat × Nat) : Except Fail Bytes := readRange file e.1 (e.1 + e.2)

theorem readRange_ok {file : Bytes} {a b : Nat} {x : Bytes} (h : readRange file a b = .ok x) :
    a ≤ b ∧ b ≤ file.length ∧ x = (file.drop a).take (b - a) := by
  unfold readRange at h
  split at h
  · rename_i hc
    cases h
    exact ⟨hc.1, hc.2, rfl⟩
  · cases h

theorem readRange_append {file : Bytes} {a b : Nat} {x : Bytes} (h : readRange file a b = .ok x) (y : Bytes) :
    readRange (file ++ y) a b = .ok x := by
  obtain ⟨h1, h2, h3⟩ := readRange_ok h
  unfold readRange
  rw [if_pos ⟨h1, by rw [List.length_append]; omega⟩, h3, List.drop_append_of_le_length (by omega),
    List.take_append_of_le_length (by rw [List.length_drop]; omega)]

theorem bufAt_append {file : Bytes} {e : Nat × Nat} {x : Bytes} (h : bufAt file e = .ok x) (y : Bytes) :
    bufAt (file ++ y) e = .ok x := readRange_append h y

theorem bufAt_here (a b c : Bytes) : bufAt (a ++ b ++ c) (a.length, b.length) = .ok b := by
  unfold bufAt readRange
  rw [if_pos ⟨by simp, by simp⟩, List.append_assoc, List.drop_left]
  simp

theorem map_bufAt_append {file : Bytes} {l : List (Nat × Nat)} {bs : List Bytes} (h : l.map (bufAt file) = bs.map .ok)
    (y : Bytes) : l.map (bufAt (file ++ y)) = bs.map .ok := by
  induction l generalizing bs with
  | nil =>
    cases bs with
    | nil => rfl
    | cons b bs => simp at h
  | cons e l ih =>
    cases bs with
    | nil => simp at h
    | cons b bs =>
      simp only [List.map_cons, List.cons.injEq] at h ⊢
      exact ⟨bufAt_append h.1 y, ih h.2⟩

theorem intAt_zero (n x : Nat) (rest : Bytes) (h : x < 256 ^ n) : intAt (leBytes n x ++ rest) 0 n = x := by
  unfold intAt
  rw [List.drop_zero, List.take_append_of_le_length (by rw [leBytes_length]; exact Nat.le_refl _),
    List.take_of_length_le (by rw [leBytes_length]; exact Nat.le_refl _), fromLe_leBytes n x h]

theorem intAt_skip (a rest : Bytes) (o n : Nat) : intAt (a ++ rest) (a.length + o) n = intAt rest o n := by
  unfold intAt
  rw [← List.drop_drop, List.drop_left]

theorem intAt_skip' {a : Bytes} {k : Nat} (ha : a.length = k) (rest : Bytes) (o n : Nat) (h : k ≤ o) :
    intAt (a ++ rest) o n = intAt rest (o - k) n := by
  subst ha
  rw [← intAt_skip a rest (o - a.length) n]
  congr 1
  omega

theorem intAt_drop (b : Bytes) (k o n : Nat) : intAt (b.drop k) o n = intAt b (k + o) n := by
  unfold intAt
  rw [List.drop_drop]

theorem footer_length (a b c d e f g : Nat) : (footer a b c d e f g).length = 40 := by
  simp [footer, leBytes_length, magic]

theorem decodeFooter_footer (pre : Bytes) (a b c d e f g : Nat) (ha : a < 2 ^ 64) (hb : b < 2 ^ 64) (hc : c < 2 ^ 64)
    (hd : d < 2 ^ 32) (he : e < 2 ^ 32) (hf : f < 2 ^ 16) (hg : g < 2 ^ 16) (hv : ¬ (f = 0 ∧ g = 2)) :
    decodeFooter (pre ++ footer a b c d e f g) = .ok ⟨a, b, c, d, e, f, g⟩ := by
  have hl := footer_length a b c d e f g
  have h40 : (pre ++ footer a b c d e f g).drop ((pre ++ footer a b c d e f g).length - 40) = footer a b c d e f g := by
    rw [List.length_append, hl, Nat.add_sub_cancel, List.drop_left]
  have h4 : (pre ++ footer a b c d e f g).drop ((pre ++ footer a b c d e f g).length - 4) = magic := by
    have : footer a b c d e f g =
        (leBytes 8 a ++ leBytes 8 b ++ leBytes 8 c ++ leBytes 4 d ++ leBytes 4 e ++ leBytes 2 f ++ leBytes 2 g) ++ magic := rfl
    rw [this, ← List.append_assoc, List.length_append (bs := magic), show magic.length = 4 from rfl, Nat.add_sub_cancel,
      List.drop_left]
  unfold decodeFooter
  rw [if_neg (by rw [List.length_append, hl]; omega)]
  simp only [h40, h4, ne_eq, not_true, if_false]
  have e0 : intAt (footer a b c d e f g) 0 8 = a := by
    unfold footer
    simp only [List.append_assoc]
    exact intAt_zero 8 a _ ha
  have e1 : intAt (footer a b c d e f g) 8 8 = b := by
    unfold footer
    simp only [List.append_assoc]
    rw [intAt_skip' (leBytes_length 8 a) _ _ _ (by omega)]
    exact intAt_zero 8 b _ hb
  have e2 : intAt (footer a b c d e f g) 16 8 = c := by
    unfold footer
    simp only [List.append_assoc]
    rw [intAt_skip' (leBytes_length 8 a) _ _ _ (by omega), intAt_skip' (leBytes_length 8 b) _ _ _ (by omega)]
    exact intAt_zero 8 c _ hc
  have e3 : intAt (footer a b c d e f g) 24 4 = d := by
    unfold footer
    simp only [List.append_assoc]
    rw [intAt_skip' (leBytes_length 8 a) _ _ _ (by omega), intAt_skip' (leBytes_length 8 b) _ _ _ (by omega),
      intAt_skip' (leBytes_length 8 c) _ _ _ (by omega)]
    exact intAt_zero 4 d _ hd
  have e4 : intAt (footer a b c d e f g) 28 4 = e := by
    unfold footer
    simp only [List.append_assoc]
    rw [intAt_skip' (leBytes_length 8 a) _ _ _ (by omega), intAt_skip' (leBytes_length 8 b) _ _ _ (by omega),
      intAt_skip' (leBytes_length 8 c) _ _ _ (by omega), intAt_skip' (leBytes_length 4 d) _ _ _ (by omega)]
    exact intAt_zero 4 e _ he
  have e5 : intAt (footer a b c d e f g) 32 2 = f := by
    unfold footer
    simp only [List.append_assoc]
    rw [intAt_skip' (leBytes_length 8 a) _ _ _ (by omega), intAt_skip' (leBytes_length 8 b) _ _ _ (by omega),
      intAt_skip' (leBytes_length 8 c) _ _ _ (by omega), intAt_skip' (leBytes_length 4 d) _ _ _ (by omega),
      intAt_skip' (leBytes_length 4 e) _ _ _ (by omega)]
    exact intAt_zero 2 f _ hf
  have e6 : intAt (footer a b c d e f g) 34 2 = g := by
    unfold footer
    simp only [List.append_assoc]
    rw [intAt_skip' (leBytes_length 8 a) _ _ _ (by omega), intAt_skip' (leBytes_length 8 b) _ _ _ (by omega),
      intAt_skip' (leBytes_length 8 c) _ _ _ (by omega), intAt_skip' (leBytes_length 4 d) _ _ _ (by omega),
      intAt_skip' (leBytes_length 4 e) _ _ _ (by omega), intAt_skip' (leBytes_length 2 f) _ _ _ (by omega)]
    exact intAt_zero 2 g _ hg
  rw [e0, e1, e2, e3, e4, e5, e6, if_neg hv]

theorem table_length (l : List (Nat × Nat)) : (table l).length = 16 * l.length := by
  induction l with
  | nil => rfl
  | cons e l ih =>
    rw [table, List.flatMap_cons, List.length_append, ← table, ih]
    simp only [List.length_append, leBytes_length, List.length_cons]
    omega

theorem table_cons (e : Nat × Nat) (l : List (Nat × Nat)) :
    table (e :: l) = leBytes 8 e.1 ++ (leBytes 8 e.2 ++ table l) := by
  rw [table, List.flatMap_cons, ← table, List.append_assoc]

theorem gboTable_table (v : Ver) (l : List (Nat × Nat)) (rest : Bytes) (h : ∀ e ∈ l, e.1 < 2 ^ 64 ∧ e.2 < 2 ^ 64)
    (ha : v = .v21 → ∀ e ∈ l, e.1 % 64 = 0) : gboTable v l.length (table l ++ rest) = .ok l := by
  induction l with
  | nil => rfl
  | cons e l ih =>
    have h1 := h e List.mem_cons_self
    rw [table_cons, List.length_cons, gboTable]
    simp only [List.append_assoc]
    have e0 : intAt (leBytes 8 e.1 ++ (leBytes 8 e.2 ++ (table l ++ rest))) 0 8 = e.1 := intAt_zero 8 _ _ h1.1
    have e1 : intAt (leBytes 8 e.1 ++ (leBytes 8 e.2 ++ (table l ++ rest))) 8 8 = e.2 := by
      rw [intAt_skip' (leBytes_length 8 _) _ _ _ (by omega)]
      exact intAt_zero 8 _ _ h1.2
    have e2 : (leBytes 8 e.1 ++ (leBytes 8 e.2 ++ (table l ++ rest))).drop 16 = table l ++ rest := by
      rw [← List.append_assoc]
      exact List.drop_left' (by simp [leBytes_length])
    rw [e0, e1, e2, if_neg (by simp only [List.length_append, leBytes_length]; omega), if_neg (fun hc => hc.2 (ha hc.1 e List.mem_cons_self)),
      if_neg (by simp only [List.length_append, leBytes_length]; omega), ih (fun x hx => h x (List.mem_cons_of_mem _ hx))
        (fun hv x hx => ha hv x (List.mem_cons_of_mem _ hx))]
    rfl

theorem intAt_table (l : List (Nat × Nat)) (h : ∀ e ∈ l, e.1 < 2 ^ 64 ∧ e.2 < 2 ^ 64) (i : Nat) (e : Nat × Nat)
    (hi : l[i]? = some e) : intAt (table l) (i * 16) 8 = e.1 ∧ intAt (table l) (i * 16 + 8) 8 = e.2 := by
  induction l generalizing i with
  | nil => simp at hi
  | cons x l ih =>
    have h1 := h x List.mem_cons_self
    rw [table_cons]
    cases i with
    | zero =>
      simp at hi
      subst hi
      rw [Nat.zero_mul]
      refine ⟨intAt_zero 8 _ _ h1.1, ?_⟩
      rw [intAt_skip' (leBytes_length 8 _) _ _ _ (by omega)]
      exact intAt_zero 8 _ _ h1.2
    | succ i =>
      rw [List.getElem?_cons_succ] at hi
      obtain ⟨k1, k2⟩ := ih (fun y hy => h y (List.mem_cons_of_mem _ hy)) i hi
      rw [intAt_skip' (leBytes_length 8 _) _ _ _ (by omega), intAt_skip' (leBytes_length 8 _) _ _ _ (by omega),
        intAt_skip' (leBytes_length 8 _) _ _ _ (by omega), intAt_skip' (leBytes_length 8 _) _ _ _ (by omega)]
      rw [show (i + 1) * 16 - 8 - 8 = i * 16 by omega, show (i + 1) * 16 + 8 - 8 - 8 = i * 16 + 8 by omega]
      exact ⟨k1, k2⟩

/-! ### Blocks -/

theorem readTail_ok (block : Nat) (file : Bytes) :
    ∃ k, readTail block file = .ok (file.drop k) ∧ (40 ≤ block → 40 ≤ file.length → k + 40 ≤ file.length) ∧
      (file.length < 40 → (file.drop k).length < 40) := by
  refine ⟨if file.length < block then 0 else file.length - block, ?_, ?_, ?_⟩
  · unfold readTail readRange
    rw [if_pos ⟨by split <;> omega, Nat.le_refl _⟩, List.take_of_length_le (by rw [List.length_drop]; exact Nat.le_refl _)]
  · intro h1 h2
    split <;> omega
  · intro h
    rw [List.length_drop]
    omega

theorem decodeFooter_drop (file : Bytes) (k : Nat) (h : k + 40 ≤ file.length) :
    decodeFooter (file.drop k) = decodeFooter file := by
  unfold decodeFooter
  have h1 : ¬ (file.drop k).length < 40 := by rw [List.length_drop]; omega
  have h2 : ¬ file.length < 40 := by omega
  rw [if_neg h1, if_neg h2]
  simp only [List.length_drop, List.drop_drop]
  rw [show k + (file.length - k - 40) = file.length - 40 by omega, show k + (file.length - k - 4) = file.length - 4 by omega]

theorem tailRead_drop (file : Bytes) (k : Nat) (h : k ≤ file.length) (s : Nat) :
    tailRead (file.drop k) s file = if s ≤ file.length then .ok (file.drop s) else .error .panic := by
  unfold tailRead
  by_cases hs : s ≤ file.length
  · rw [if_pos hs, if_pos hs]
    simp only [List.length_drop]
    by_cases hk : file.length - s ≤ file.length - k
    · rw [if_pos hk, List.drop_drop]
      congr 2
      omega
    · rw [if_neg hk]
      unfold readRange
      rw [if_pos (by omega)]
      simp only [Except.map]
      rw [show file.length - (file.length - s) = s by omega,
        show s + (file.length - s - (file.length - k)) - s = k - s by omega]
      congr 1
      have : file.drop k = (file.drop s).drop (k - s) := by rw [List.drop_drop]; congr 1; omega
      rw [this, List.take_append_drop]
  · rw [if_neg hs, if_neg hs]

end Verif.File
