import Verif.PageTable.Model
/-! Lemmas about page tables. -/
namespace Verif.PageTable
open Verif.Zip (leBytes ofBytes leBytes_length ofBytes_leBytes_lt)

theorem get_unique {t : Table} {f : Int} {b : Nat} {p : Page} (hm : ((f, b), p) ∈ t) (hu : ∀ q, ((f, b), q) ∈ t → q = p) : t.get f b = some p := by
  unfold Table.get
  cases hfind : t.find? (fun e => e.1 == (f, b)) with
  | none =>
    have := List.find?_eq_none.mp hfind _ hm
    simp at this
  | some e =>
    have h1 := List.find?_some hfind
    have h2 := List.mem_of_find?_eq_some hfind
    obtain ⟨k, q⟩ := e
    simp only [beq_iff_eq] at h1
    subst h1
    simp only [Option.map_some, Option.some.injEq]
    exact hu q h2

theorem get_none {t : Table} {f : Int} {b : Nat} (h : ∀ q, ((f, b), q) ∉ t) : t.get f b = none := by
  unfold Table.get
  rw [Option.map_eq_none_iff, List.find?_eq_none]
  intro e he
  simp only [beq_iff_eq]
  intro hk
  obtain ⟨k, q⟩ := e
  simp only at hk
  subst hk
  exact h q he

theorem get_mem {t : Table} {f : Int} {b : Nat} {p : Page} (h : t.get f b = some p) : ((f, b), p) ∈ t := by
  unfold Table.get at h
  rw [Option.map_eq_some_iff] at h
  obtain ⟨e, he, hp⟩ := h
  have h1 := List.find?_some he
  have h2 := List.mem_of_find?_eq_some he
  obtain ⟨k, q⟩ := e
  simp only [beq_iff_eq] at h1
  subst h1
  simp only at hp
  subst hp
  exact h2

/-! ## Words -/

theorem flatMap_const {α : Type} {g : α → List Nat} {n : Nat} (l : List α) (h : ∀ x ∈ l, (g x).length = n) : (l.flatMap g).length = l.length * n := by
  induction l with
  | nil => simp
  | cons x l ih =>
    rw [List.flatMap_cons, List.length_append, h x (by simp), ih (fun y hy => h y (by simp [hy])), List.length_cons, Nat.succ_mul, Nat.add_comm]

theorem getElem?_flatMap_const {α : Type} {g : α → List Nat} {n : Nat} (l : List α) (h : ∀ x ∈ l, (g x).length = n) (k i : Nat) (hi : i < n) (x : α)
    (hx : l[k]? = some x) : (l.flatMap g)[k * n + i]? = (g x)[i]? := by
  induction l generalizing k with
  | nil => simp at hx
  | cons y l ih =>
    rw [List.flatMap_cons]
    cases k with
    | zero =>
      simp only [List.getElem?_cons_zero, Option.some.injEq] at hx
      subst hx
      rw [Nat.zero_mul, Nat.zero_add, List.getElem?_append_left (by rw [h y (by simp)]; exact hi)]
    | succ k =>
      rw [List.getElem?_cons_succ] at hx
      have hy := h y (by simp)
      rw [List.getElem?_append_right (by rw [hy, Nat.succ_mul]; omega), hy]
      have : (k + 1) * n + i - n = k * n + i := by rw [Nat.succ_mul]; omega
      rw [this]
      exact ih (fun z hz => h z (by simp [hz])) k hx

theorem word_bytes (ws rest : List Nat) (k x : Nat) (hx : ws[k]? = some x) (hlt : x < 2 ^ 64) : word (ws.flatMap (leBytes 8) ++ rest) k = x := by
  unfold word
  induction ws generalizing k with
  | nil => simp at hx
  | cons w ws ih =>
    rw [List.flatMap_cons, List.append_assoc]
    have hl : (leBytes 8 w).length = 8 := leBytes_length 8 w
    cases k with
    | zero =>
      simp only [List.getElem?_cons_zero, Option.some.injEq] at hx
      subst hx
      rw [Nat.mul_zero, List.drop_zero, List.take_append_of_le_length (by omega), List.take_of_length_le (by omega)]
      exact ofBytes_leBytes_lt 8 w (by have : (256 : Nat) ^ 8 = 2 ^ 64 := by decide
                                       omega)
    | succ k =>
      rw [List.getElem?_cons_succ] at hx
      have : 8 * (k + 1) = (leBytes 8 w).length + 8 * k := by omega
      rw [this, List.drop_length_add_append]
      exact ih k hx

theorem word_take (l : List Nat) (m k : Nat) (h : 8 * k + 8 ≤ m) : word (l.take m) k = word l k := by
  unfold word
  rw [List.drop_take, List.take_take, Nat.min_eq_left (by omega)]

theorem fieldRange_get (lo hi : Int) (c : Nat) (h : lo + (c : Int) ≤ hi) : (fieldRange lo hi)[c]? = some (lo + (c : Int)) := by
  unfold fieldRange
  rw [List.getElem?_map, List.getElem?_range (by omega)]
  rfl

theorem fieldRange_length (lo hi : Int) : (fieldRange lo hi).length = (hi + 1 - lo).toNat := by simp [fieldRange]

theorem entry_length (t : Table) (f : Int) (b : Nat) : (t.entry f b).length = 2 := by
  unfold Table.entry
  split <;> rfl

theorem row_length (t : Table) (f : Int) (nb : Nat) : ((List.range nb).flatMap (fun b => t.entry f b)).length = nb * 2 := by
  rw [flatMap_const _ (fun b _ => entry_length t f b), List.length_range]

theorem words_length (t : Table) (fs : List Int) (nb : Nat) : (t.words fs nb).length = fs.length * (nb * 2) := by
  unfold Table.words
  rw [flatMap_const _ (fun f _ => row_length t f nb)]

theorem bytes_length (ws : List Nat) : (ws.flatMap (leBytes 8)).length = ws.length * 8 := flatMap_const _ (fun w _ => leBytes_length 8 w)

theorem words_get (t : Table) (lo hi : Int) (nb c b i : Nat) (hc : lo + (c : Int) ≤ hi) (hb : b < nb) (hi' : i < 2) :
    (t.words (fieldRange lo hi) nb)[(c * nb + b) * 2 + i]? = (t.entry (lo + (c : Int)) b)[i]? := by
  unfold Table.words
  have e : (c * nb + b) * 2 + i = c * (nb * 2) + (b * 2 + i) := by rw [Nat.add_mul, Nat.mul_assoc]; omega
  rw [e, getElem?_flatMap_const _ (fun f _ => row_length t f nb) c (b * 2 + i) (by omega) _ (fieldRange_get lo hi c hc),
    getElem?_flatMap_const _ (fun b _ => entry_length t _ b) b i hi' b (by rw [List.getElem?_range hb])]

/-- The page of an entry, zeros if there is none. -/
def pageOr (o : Option Page) : Page := o.getD ⟨0, 0⟩

theorem entry_eq (t : Table) (f : Int) (b : Nat) : t.entry f b = [(pageOr (t.get f b)).position, (pageOr (t.get f b)).length] := by
  unfold Table.entry pageOr
  cases t.get f b <;> rfl

theorem pageAt_words (t : Table) (lo hi : Int) (nb c b m : Nat) (rest : List Nat) (hc : lo + (c : Int) ≤ hi) (hb : b < nb)
    (hsmall : ∀ f b p, t.get f b = some p → p.position < 2 ^ 64 ∧ p.length < 2 ^ 64) (hm : 8 * ((c * nb + b) * 2 + 1) + 8 ≤ m) :
    pageAt ((((t.words (fieldRange lo hi) nb).flatMap (leBytes 8)) ++ rest).take m) (c * nb + b) = pageOr (t.get (lo + (c : Int)) b) := by
  have hs : (pageOr (t.get (lo + (c : Int)) b)).position < 2 ^ 64 ∧ (pageOr (t.get (lo + (c : Int)) b)).length < 2 ^ 64 := by
    cases hg : t.get (lo + (c : Int)) b with
    | none => exact ⟨by decide, by decide⟩
    | some p => exact hsmall _ _ _ hg
  unfold pageAt
  rw [word_take _ _ _ (by omega), word_take _ _ _ (by omega)]
  have h0 := words_get t lo hi nb c b 0 hc hb (by omega)
  have h1 := words_get t lo hi nb c b 1 hc hb (by omega)
  rw [entry_eq] at h0 h1
  simp only [List.getElem?_cons_zero, List.getElem?_cons_succ, Nat.add_zero] at h0 h1
  rw [word_bytes _ _ _ _ h0 hs.1, word_bytes _ _ _ _ h1 hs.2]

theorem mem_entries (bytes : List Nat) (lo : Int) (cols nb : Nat) (f : Int) (b : Nat) (p : Page) :
    ((f, b), p) ∈ entries bytes lo cols nb ↔ ∃ c : Nat, c < cols ∧ b < nb ∧ f = lo + (c : Int) ∧ p = pageAt bytes (c * nb + b) := by
  unfold entries
  simp only [List.mem_flatMap, List.mem_map, List.mem_range, Prod.mk.injEq]
  constructor
  · rintro ⟨c, hc, b', hb, ⟨h1, h2⟩, h3⟩
    subst h2
    exact ⟨c, hc, hb, h1.symm, h3.symm⟩
  · rintro ⟨c, hc, hb, h1, h2⟩
    exact ⟨c, hc, b, hb, ⟨h1.symm, rfl⟩, h2.symm⟩

theorem entries_get (bytes : List Nat) (lo : Int) (cols nb c b : Nat) (hc : c < cols) (hb : b < nb) :
    (entries bytes lo cols nb).get (lo + (c : Int)) b = some (pageAt bytes (c * nb + b)) := by
  refine get_unique ((mem_entries ..).mpr ⟨c, hc, hb, rfl, rfl⟩) ?_
  intro q hq
  obtain ⟨c', _, _, h1, h2⟩ := (mem_entries ..).mp hq
  have : c' = c := by omega
  subst this
  exact h2

theorem entries_get_none (bytes : List Nat) (lo : Int) (cols nb : Nat) (f : Int) (b : Nat) (h : f < lo ∨ lo + (cols : Int) ≤ f ∨ nb ≤ b) :
    (entries bytes lo cols nb).get f b = none := by
  refine get_none ?_
  intro q hq
  obtain ⟨c, hc, hb, h1, _⟩ := (mem_entries ..).mp hq
  omega

/-! ## Minimum, maximum -/

theorem foldl_max_spec (l : List Int) (a : Int) : (l.foldl max a = a ∨ l.foldl max a ∈ l) ∧ a ≤ l.foldl max a ∧ ∀ x ∈ l, x ≤ l.foldl max a := by
  induction l generalizing a with
  | nil => simp
  | cons y l ih =>
    obtain ⟨h1, h2, h3⟩ := ih (max a y)
    rw [List.foldl_cons]
    refine ⟨?_, by omega, ?_⟩
    · rcases h1 with h | h
      · rw [h]
        rcases Int.le_total a y with h' | h'
        · rw [Int.max_eq_right h']; exact Or.inr (by simp)
        · rw [Int.max_eq_left h']; exact Or.inl rfl
      · exact Or.inr (by simp [h])
    · intro x hx
      rcases List.mem_cons.mp hx with rfl | hx
      · omega
      · exact h3 x hx

theorem foldl_min_spec (l : List Int) (a : Int) : (l.foldl min a = a ∨ l.foldl min a ∈ l) ∧ l.foldl min a ≤ a ∧ ∀ x ∈ l, l.foldl min a ≤ x := by
  induction l generalizing a with
  | nil => simp
  | cons y l ih =>
    obtain ⟨h1, h2, h3⟩ := ih (min a y)
    rw [List.foldl_cons]
    refine ⟨?_, by omega, ?_⟩
    · rcases h1 with h | h
      · rw [h]
        rcases Int.le_total a y with h' | h'
        · rw [Int.min_eq_left h']; exact Or.inl rfl
        · rw [Int.min_eq_right h']; exact Or.inr (by simp)
      · exact Or.inr (by simp [h])
    · intro x hx
      rcases List.mem_cons.mp hx with rfl | hx
      · omega
      · exact h3 x hx

theorem maximum?_spec {l : List Int} {m : Int} (h : maximum? l = some m) : m ∈ l ∧ ∀ x ∈ l, x ≤ m := by
  cases l with
  | nil => simp [maximum?] at h
  | cons a l =>
    simp only [maximum?, Option.some.injEq] at h
    subst h
    obtain ⟨h1, h2, h3⟩ := foldl_max_spec l a
    refine ⟨?_, ?_⟩
    · rcases h1 with h | h
      · rw [h]; simp
      · simp [h]
    · intro x hx
      rcases List.mem_cons.mp hx with rfl | hx
      · exact h2
      · exact h3 x hx

theorem minimum?_spec {l : List Int} {m : Int} (h : minimum? l = some m) : m ∈ l ∧ ∀ x ∈ l, m ≤ x := by
  cases l with
  | nil => simp [minimum?] at h
  | cons a l =>
    simp only [minimum?, Option.some.injEq] at h
    subst h
    obtain ⟨h1, h2, h3⟩ := foldl_min_spec l a
    refine ⟨?_, ?_⟩
    · rcases h1 with h | h
      · rw [h]; simp
      · simp [h]
    · intro x hx
      rcases List.mem_cons.mp hx with rfl | hx
      · exact h2
      · exact h3 x hx

theorem maximum?_some {l : List Int} {x : Int} (h : x ∈ l) : ∃ m, maximum? l = some m := by
  cases l with
  | nil => simp at h
  | cons a l => exact ⟨_, rfl⟩

theorem minimum?_some {l : List Int} {x : Int} (h : x ∈ l) : ∃ m, minimum? l = some m := by
  cases l with
  | nil => simp at h
  | cons a l => exact ⟨_, rfl⟩

theorem batches_spec (t : Table) (a : Nat) :
    let n := t.foldl (fun n e => max n (e.1.2 + 1)) a
    (n = a ∨ ∃ e ∈ t, n = e.1.2 + 1) ∧ a ≤ n ∧ ∀ e ∈ t, e.1.2 + 1 ≤ n := by
  induction t generalizing a with
  | nil => simp
  | cons y l ih =>
    obtain ⟨h1, h2, h3⟩ := ih (max a (y.1.2 + 1))
    simp only [List.foldl_cons]
    refine ⟨?_, by omega, ?_⟩
    · rcases h1 with h | ⟨e, he, h⟩
      · rw [h]
        rcases Nat.le_total a (y.1.2 + 1) with h' | h'
        · rw [Nat.max_eq_right h']; exact Or.inr ⟨y, by simp, rfl⟩
        · rw [Nat.max_eq_left h']; exact Or.inl rfl
      · exact Or.inr ⟨e, by simp [he], h⟩
    · intro x hx
      rcases List.mem_cons.mp hx with rfl | hx
      · omega
      · exact h3 x hx

/-! ## The whole table -/

/-- What a table that was written is when it is loaded with any range of fields. -/
theorem load_write (t : Table) (lo lo' hi' : Int) (tbl pre post : List Nat) (hw : t.write lo = some tbl)
    (hsmall : ∀ f b p, t.get f b = some p → p.position < 2 ^ 64 ∧ p.length < 2 ^ 64) (hle : lo' ≤ hi')
    (hsize : (hi' + 1 - lo').toNat * t.batches * 2 ≤ 2 ^ 31)
    (hfit : 8 * ((hi' + 1 - lo').toNat * t.batches * 2) ≤ tbl.length + post.length) :
    ∃ t', load (pre ++ tbl ++ post) pre.length lo' hi' t.batches = some t' ∧
      (∀ f b, lo' ≤ f → f ≤ hi' → b < t.batches → (∃ x ∈ t.map (·.1.1), f - lo' + lo ≤ x) → t'.get f b = some (pageOr (t.get (f - lo' + lo) b))) ∧
      (∀ f b, f < lo' ∨ hi' < f ∨ t.batches ≤ b → t'.get f b = none) := by
  unfold Table.write at hw
  split at hw
  case h_2 => cases hw
  case h_1 observed hi hmin hmax =>
    split at hw
    case isTrue => cases hw
    case isFalse hlo =>
      simp only [Option.some.injEq] at hw
      unfold load
      rw [if_neg (by omega)]
      simp only []
      rw [if_neg (by omega), if_neg (by simp only [List.length_append]; omega)]
      refine ⟨_, rfl, ?_, ?_⟩
      · intro f b h1 h2 hb ⟨x, hx, hfx⟩
        have hxm := (maximum?_spec hmax).2 x hx
        have hf : f = lo' + (((f - lo').toNat : Nat) : Int) := by omega
        have hcl : (f - lo').toNat < (hi' + 1 - lo').toNat := by omega
        have hidx : (f - lo').toNat * t.batches + b < (hi' + 1 - lo').toNat * t.batches := by
          have : ((f - lo').toNat + 1) * t.batches ≤ (hi' + 1 - lo').toNat * t.batches := Nat.mul_le_mul_right _ (by omega)
          rw [Nat.succ_mul] at this
          omega
        conv => lhs; rw [hf]
        rw [entries_get _ _ _ _ _ _ hcl hb, List.append_assoc, List.drop_left, ← hw,
          pageAt_words t lo hi _ _ _ _ post (by omega) hb hsmall (by omega)]
        have : lo + (((f - lo').toNat : Nat) : Int) = f - lo' + lo := by omega
        rw [this]
      · intro f b h
        refine entries_get_none _ _ _ _ _ _ ?_
        omega

theorem write_length (t : Table) (lo : Int) (tbl : List Nat) (hw : t.write lo = some tbl) (x : Int) (hx : x ∈ t.map (·.1.1)) :
    8 * ((x + 1 - lo).toNat * t.batches * 2) ≤ tbl.length := by
  unfold Table.write at hw
  split at hw
  case h_2 => cases hw
  case h_1 observed hi hmin hmax =>
    split at hw
    case isTrue => cases hw
    case isFalse hlo =>
      simp only [Option.some.injEq] at hw
      rw [← hw, bytes_length, words_length, fieldRange_length]
      have := (maximum?_spec hmax).2 x hx
      have h2 : (x + 1 - lo).toNat * (t.batches * 2) ≤ (hi + 1 - lo).toNat * (t.batches * 2) := Nat.mul_le_mul_right _ (by omega)
      rw [Nat.mul_assoc (x + 1 - lo).toNat]
      omega

/-! ## The writer -/

theorem mem_addBatch (schema : List Fld) (t : Table) (batch : Nat) (pages : Int → Page) (e : (Int × Nat) × Page) :
    e ∈ addBatch schema t batch pages ↔ e ∈ t ∨ ∃ f ∈ schema, f.paged = true ∧ e = ((f.id, batch), pages f.id) := by
  unfold addBatch
  suffices ∀ l : List Fld, e ∈ l.foldl (fun t f => t.set f.id batch (pages f.id)) t ↔ e ∈ t ∨ ∃ f ∈ l, e = ((f.id, batch), pages f.id) by
    rw [this]
    simp only [List.mem_filter, and_assoc]
  intro l
  induction l generalizing t with
  | nil => simp
  | cons x l ih =>
    rw [List.foldl_cons, ih]
    simp only [Table.set, List.mem_cons]
    constructor
    · rintro ((h | h) | ⟨f, hf, h⟩)
      · exact Or.inr ⟨x, Or.inl rfl, h⟩
      · exact Or.inl h
      · exact Or.inr ⟨f, Or.inr hf, h⟩
    · rintro (h | ⟨f, rfl | hf, h⟩)
      · exact Or.inl (Or.inr h)
      · exact Or.inl (Or.inl h)
      · exact Or.inr ⟨f, hf, h⟩

theorem mem_addBatches (schema : List Fld) (bs : List (Int → Page)) (t : Table) (k : Nat) (e : (Int × Nat) × Page) :
    e ∈ addBatches schema t k bs ↔ e ∈ t ∨ ∃ (i : Nat) (p : Int → Page), bs[i]? = some p ∧ ∃ f ∈ schema, f.paged = true ∧ e = ((f.id, k + i), p f.id) := by
  induction bs generalizing t k with
  | nil => simp [addBatches]
  | cons p bs ih =>
    rw [addBatches, ih, mem_addBatch]
    constructor
    · rintro ((h | ⟨f, hf, hp, h⟩) | ⟨i, q, hq, f, hf, hp, h⟩)
      · exact Or.inl h
      · exact Or.inr ⟨0, p, rfl, f, hf, hp, h⟩
      · refine Or.inr ⟨i + 1, q, hq, f, hf, hp, ?_⟩
        rw [h, Nat.add_assoc, Nat.add_comm 1]
    · rintro (h | ⟨i, q, hq, f, hf, hp, h⟩)
      · exact Or.inl (Or.inl h)
      · cases i with
        | zero =>
          simp only [List.getElem?_cons_zero, Option.some.injEq] at hq
          subst hq
          exact Or.inl (Or.inr ⟨f, hf, hp, h⟩)
        | succ i =>
          rw [List.getElem?_cons_succ] at hq
          refine Or.inr ⟨i, q, hq, f, hf, hp, ?_⟩
          rw [h, Nat.add_assoc, Nat.add_comm 1]

theorem written_get (schema : List Fld) (bs : List (Int → Page)) (f : Fld) (hf : f ∈ schema) (hp : f.paged = true) (b : Nat) (p : Int → Page)
    (hb : bs[b]? = some p) : (addBatches schema [] 0 bs).get f.id b = some (p f.id) := by
  refine get_unique ((mem_addBatches ..).mpr (Or.inr ⟨b, p, hb, f, hf, hp, by simp⟩)) ?_
  intro q hq
  rcases (mem_addBatches ..).mp hq with h | ⟨i, p', hi, f', _, _, h⟩
  · simp at h
  · simp only [Prod.mk.injEq, Nat.zero_add] at h
    obtain ⟨⟨h1, h2⟩, h3⟩ := h
    subst h2
    rw [hb, Option.some.injEq] at hi
    subst hi
    rw [h3, h1]

theorem written_get_some (schema : List Fld) (bs : List (Int → Page)) (x : Int) (b : Nat) (q : Page) (h : (addBatches schema [] 0 bs).get x b = some q) :
    ∃ p, bs[b]? = some p ∧ q = p x := by
  rcases (mem_addBatches ..).mp (get_mem h) with h | ⟨i, p', hi, f', _, _, h⟩
  · simp at h
  · simp only [Prod.mk.injEq, Nat.zero_add] at h
    obtain ⟨⟨h1, h2⟩, h3⟩ := h
    subst h2
    exact ⟨p', hi, by rw [h3, h1]⟩

theorem written_fields (schema : List Fld) (bs : List (Int → Page)) (x : Int) :
    x ∈ (addBatches schema [] 0 bs).map (·.1.1) ↔ bs ≠ [] ∧ ∃ f ∈ schema, f.paged = true ∧ f.id = x := by
  rw [List.mem_map]
  constructor
  · rintro ⟨e, he, rfl⟩
    rcases (mem_addBatches ..).mp he with h | ⟨i, p, hi, f, hf, hp, h⟩
    · simp at h
    · refine ⟨?_, f, hf, hp, by rw [h]⟩
      rintro rfl
      simp at hi
  · rintro ⟨hne, f, hf, hp, rfl⟩
    obtain ⟨p, bs', rfl⟩ := List.exists_cons_of_ne_nil hne
    exact ⟨((f.id, 0), p f.id), (mem_addBatches ..).mpr (Or.inr ⟨0, p, rfl, f, hf, hp, by simp⟩), rfl⟩

theorem written_batches (schema : List Fld) (bs : List (Int → Page)) (f : Fld) (hf : f ∈ schema) (hp : f.paged = true) :
    (addBatches schema [] 0 bs).batches = bs.length := by
  obtain ⟨h1, _, h3⟩ := batches_spec (addBatches schema [] 0 bs) 0
  unfold Table.batches
  refine Nat.le_antisymm ?_ ?_
  · rcases h1 with h | ⟨e, he, h⟩
    · rw [h]; exact Nat.zero_le _
    · rw [h]
      rcases (mem_addBatches ..).mp he with h' | ⟨i, p, hi, f', _, _, h'⟩
      · simp at h'
      · rw [h']
        have := (List.getElem?_eq_some_iff.mp hi).1
        simp only
        omega
  · cases hl : bs.length with
    | zero => exact Nat.zero_le _
    | succ n =>
      have hn : n < bs.length := by omega
      have := h3 ((f.id, n), bs[n] f.id) ((mem_addBatches ..).mpr (Or.inr ⟨n, bs[n], List.getElem?_eq_getElem hn, f, hf, hp, by simp⟩))
      exact this

/-! ## Sorted fields -/

theorem mem_insertSorted (x y : Int) (l : List Int) : y ∈ insertSorted x l ↔ y = x ∨ y ∈ l := by
  induction l with
  | nil => simp [insertSorted]
  | cons z l ih =>
    unfold insertSorted
    split
    · simp
    · simp only [List.mem_cons, ih]
      constructor
      · rintro (h | h | h)
        · exact Or.inr (Or.inl h)
        · exact Or.inl h
        · exact Or.inr (Or.inr h)
      · rintro (h | h | h)
        · exact Or.inr (Or.inl h)
        · exact Or.inl h
        · exact Or.inr (Or.inr h)

theorem mem_sortIds (y : Int) (l : List Int) : y ∈ sortIds l ↔ y ∈ l := by
  induction l with
  | nil => simp [sortIds]
  | cons z l ih => rw [sortIds, mem_insertSorted, ih, List.mem_cons]

theorem insertSorted_pairwise (x : Int) (l : List Int) (h : l.Pairwise (· ≤ ·)) : (insertSorted x l).Pairwise (· ≤ ·) := by
  induction l with
  | nil => simp [insertSorted]
  | cons z l ih =>
    have hz := List.pairwise_cons.mp h
    unfold insertSorted
    split
    · refine List.pairwise_cons.mpr ⟨?_, h⟩
      intro y hy
      rcases List.mem_cons.mp hy with rfl | hy
      · assumption
      · have := hz.1 y hy; omega
    · refine List.pairwise_cons.mpr ⟨?_, ih hz.2⟩
      intro y hy
      rcases (mem_insertSorted ..).mp hy with rfl | hy
      · omega
      · exact hz.1 y hy

theorem sortIds_pairwise (l : List Int) : (sortIds l).Pairwise (· ≤ ·) := by
  induction l with
  | nil => exact List.Pairwise.nil
  | cons z l ih => exact insertSorted_pairwise _ _ ih

theorem sortIds_head (l : List Int) (m : Int) (h : minimum? l = some m) : (sortIds l).head? = some m := by
  obtain ⟨h1, h2⟩ := minimum?_spec h
  have hp := sortIds_pairwise l
  have hm := (mem_sortIds m l).mpr h1
  cases hs : sortIds l with
  | nil => rw [hs] at hm; simp at hm
  | cons y ys =>
    rw [hs] at hp hm
    have hy : y ∈ l := (mem_sortIds y l).mp (by rw [hs]; simp)
    have h3 := h2 y hy
    rcases List.mem_cons.mp hm with rfl | hm'
    · rfl
    · have := (List.pairwise_cons.mp hp).1 m hm'
      have : y = m := by omega
      rw [this]; rfl

end Verif.PageTable
