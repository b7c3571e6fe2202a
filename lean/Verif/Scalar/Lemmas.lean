import Verif.Scalar.Model
import Verif.RowSet.Lemmas2
import Verif.RowSet.Props

/-! Helper lemmas for the scalar indices: the order, row sets of listed ids, association lists. -/
namespace Verif.Scalar
open Verif
open Verif.RowSet (TreeMap)

/-! ### The order -/
section
variable {V : Type} [LinOrd V]

theorem le_refl (a : V) : LinOrd.le a a = true := by
  rcases LinOrd.total a a with h | h <;> exact h

theorem lt_iff (a b : V) : lt a b = true ↔ ¬ LinOrd.le b a = true := by
  unfold lt; simp

theorem le_of_lt {a b : V} (h : lt a b = true) : LinOrd.le a b = true := by
  rw [lt_iff] at h
  rcases LinOrd.total a b with h1 | h1
  · exact h1
  · exact absurd h1 h

theorem not_lt_iff (a b : V) : ¬ lt a b = true ↔ LinOrd.le b a = true := by
  unfold lt; simp

theorem lt_irrefl (a : V) : ¬ lt a a = true := by
  rw [not_lt_iff]; exact le_refl a

theorem lt_of_lt_of_le {a b c : V} (h1 : lt a b = true) (h2 : LinOrd.le b c = true) : lt a c = true := by
  rw [lt_iff] at h1 ⊢
  intro h; exact h1 (LinOrd.trans _ _ _ h2 h)

theorem lt_of_le_of_lt {a b c : V} (h1 : LinOrd.le a b = true) (h2 : lt b c = true) : lt a c = true := by
  rw [lt_iff] at h2 ⊢
  intro h; exact h2 (LinOrd.trans _ _ _ h h1)

theorem lt_trans {a b c : V} (h1 : lt a b = true) (h2 : lt b c = true) : lt a c = true :=
  lt_of_lt_of_le h1 (le_of_lt h2)

theorem lt_asymm {a b : V} (h1 : lt a b = true) : ¬ lt b a = true := by
  intro h2; exact lt_irrefl _ (lt_trans h1 h2)

theorem ne_of_lt {a b : V} (h1 : lt a b = true) : a ≠ b := by
  intro e; subst e; exact lt_irrefl _ h1

theorem lt_of_le_ne {a b : V} (h1 : LinOrd.le a b = true) (h2 : a ≠ b) : lt a b = true := by
  rw [lt_iff]; intro h; exact h2 (LinOrd.antisymm _ _ h1 h)

theorem oLe_some (a b : V) : LinOrd.le (some a) (some b) = LinOrd.le a b := rfl
theorem oLe_none (b : Option V) : LinOrd.le none b = true := rfl
theorem oLe_some_none (a : V) : LinOrd.le (some a) (none : Option V) = false := rfl
theorem lt_some (a b : V) : lt (some a) (some b) = lt a b := rfl
theorem not_lt_none (a : Option V) : ¬ lt a none = true := by
  rw [not_lt_iff]; exact oLe_none a
end

/-! ### Row sets without whole fragments -/

/-- Strictly ordered, only listed rows, all of them 32-bit offsets in 32-bit fragments. -/
def Plain (m : TreeMap) : Prop :=
  m.Sorted ∧ ∀ e ∈ m, e.1 < 2 ^ 32 ∧ ∃ s, e.2 = .part s ∧ ∀ o ∈ s, o < 2 ^ 32

theorem plain_nil : Plain [] := ⟨SMap.sorted_nil, by simp⟩

theorem smap_mem_insert {W : Type} {k : Nat} {v : W} {m : SMap W} {e : Nat × W} (h : e ∈ SMap.insert k v m) :
    e = (k, v) ∨ e ∈ m := by
  induction m with
  | nil => simp [SMap.insert] at h; exact Or.inl h
  | cons x m ih =>
    obtain ⟨k', v'⟩ := x
    simp only [SMap.insert] at h
    split at h
    · rcases List.mem_cons.1 h with h | h
      · exact Or.inl h
      · exact Or.inr h
    · split at h
      · rcases List.mem_cons.1 h with h | h
        · exact Or.inl h
        · exact Or.inr (List.mem_cons_of_mem _ h)
      · rcases List.mem_cons.1 h with h | h
        · exact Or.inr (by rw [h]; exact List.mem_cons_self ..)
        · rcases ih h with h | h
          · exact Or.inl h
          · exact Or.inr (List.mem_cons_of_mem _ h)

theorem plain_smap_insert {m : TreeMap} (h : Plain m) (k : Nat) (hk : k < 2 ^ 32) (s : Bm)
    (hs : ∀ o ∈ s, o < 2 ^ 32) : Plain (SMap.insert k (.part s) m) := by
  refine ⟨SMap.sorted_insert _ _ _ h.1, ?_⟩
  intro e he
  rcases smap_mem_insert he with rfl | he
  · exact ⟨hk, s, rfl, hs⟩
  · exact h.2 e he

theorem plain_get {m : TreeMap} (h : Plain m) {k : Nat} {s : RowSet.Sel} (hg : SMap.get k m = some s) :
    ∃ b, s = .part b ∧ ∀ o ∈ b, o < 2 ^ 32 := (h.2 _ (SMap.get_some_mem hg)).2

theorem plain_insert {m : TreeMap} (h : Plain m) (v : Nat) : Plain (RowSet.insert m v) := by
  have h1 := RowSet.fragmentId_lt v
  have h2 := RowSet.rowOffset_lt v
  unfold RowSet.insert
  split
  · apply plain_smap_insert h _ h1
    intro o ho
    simp [Bm.insert] at ho
    omega
  · exact h
  · rename_i s hs
    apply plain_smap_insert h _ h1
    intro o ho
    rw [Bm.mem_insert] at ho
    obtain ⟨b, e, hb⟩ := plain_get h hs
    cases e
    rcases ho with rfl | ho
    · exact h2
    · exact hb o ho

theorem plain_extendIds (ids : List Nat) (m : TreeMap) (h : Plain m) : Plain (RowSet.extendIds m ids) := by
  unfold RowSet.extendIds
  induction ids generalizing m with
  | nil => exact h
  | cons v vs ih => exact ih _ (plain_insert h v)

theorem Plain.noFull {m : TreeMap} (h : Plain m) : RowSet.noFull m := by
  intro f hf
  obtain ⟨b, e, _⟩ := plain_get h hf
  cases e

theorem plain_or {m r : TreeMap} (h : Plain m) (hr : Plain r) : Plain (RowSet.or m r) := by
  unfold RowSet.or
  replace hr := hr.2
  induction r generalizing m with
  | nil => exact h
  | cons e r ih =>
    refine ih ?_ (fun e he => hr e (List.mem_cons_of_mem _ he))
    obtain ⟨h1, s, h2, h3⟩ := hr e (List.mem_cons_self ..)
    unfold RowSet.orStep
    rw [h2]
    cases hg : SMap.get e.1 m with
    | none => exact plain_smap_insert h _ h1 _ h3
    | some l =>
      obtain ⟨b, rfl, hb⟩ := plain_get h hg
      apply plain_smap_insert h _ h1
      intro o ho
      rw [Bm.mem_union] at ho
      rcases ho with ho | ho
      · exact hb o ho
      · exact h3 o ho

theorem contains_or {m r : TreeMap} (hr : Plain r) (v : Nat) :
    RowSet.contains (RowSet.or m r) v = true ↔ RowSet.contains m v = true ∨ RowSet.contains r v = true := by
  simp only [RowSet.contains_eq]
  rw [RowSet.memAt_or m r hr.1 _ _ (fun _ _ => hr.noFull _)]

theorem plain_and {m r : TreeMap} (h : Plain m) (hr : Plain r) : Plain (RowSet.and m r) := by
  refine ⟨RowSet.sorted_and m r h.1, ?_⟩
  intro e he
  unfold RowSet.and at he
  simp only [SMap.retain, SMap.mapVals] at he
  rw [List.mem_filter, List.mem_map] at he
  obtain ⟨⟨x, hx, rfl⟩, _⟩ := he
  rw [List.mem_filter] at hx
  obtain ⟨h1, s, h2, h3⟩ := h.2 x hx.1
  refine ⟨h1, ?_⟩
  show ∃ b, RowSet.andSel r x.1 x.2 = _ ∧ _
  rw [h2]
  unfold RowSet.andSel
  cases hg : SMap.get x.1 r with
  | none => exact ⟨s, rfl, h3⟩
  | some t =>
    obtain ⟨b, rfl, hb⟩ := plain_get hr hg
    refine ⟨Bm.inter s b, rfl, ?_⟩
    intro o ho
    rw [Bm.mem_inter] at ho
    exact h3 o ho.1

theorem contains_and {m r : TreeMap} (hm : Plain m) (v : Nat) :
    RowSet.contains (RowSet.and m r) v = true ↔ RowSet.contains m v = true ∧ RowSet.contains r v = true := by
  simp only [RowSet.contains_eq]
  exact RowSet.memAt_and m r hm.1 _ _

theorem contains_extendIds (m : TreeMap) (ids : List Nat) (hi : ∀ i ∈ ids, i < 2 ^ 64) (v : Nat) (hv : v < 2 ^ 64) :
    RowSet.contains (RowSet.extendIds m ids) v = true ↔ RowSet.contains m v = true ∨ v ∈ ids := by
  simp only [RowSet.contains_eq]
  rw [RowSet.memAt_extendIds]
  constructor
  · rintro (h | ⟨w, hw, h1, h2⟩)
    · exact Or.inl h
    · right
      rwa [RowSet.addr_ext (by have := hv; omega) (by have := hi w hw; omega) h1 h2]
  · rintro (h | h)
    · exact Or.inl h
    · exact Or.inr ⟨v, h, rfl, rfl⟩

theorem contains_insert (m : TreeMap) (i : Nat) (hi : i < 2 ^ 64) (v : Nat) (hv : v < 2 ^ 64) :
    RowSet.contains (RowSet.insert m i) v = true ↔ RowSet.contains m v = true ∨ v = i := by
  have := contains_extendIds m [i] (by simpa using hi) v hv
  simpa [RowSet.extendIds] using this

theorem contains_nil (v : Nat) : RowSet.contains [] v = false := rfl

theorem rowIds_plain {m : TreeMap} (h : Plain m) :
    ∃ ids, RowSet.rowIds m = some ids ∧ (∀ i ∈ ids, i < 2 ^ 64) ∧
      ∀ v, v < 2 ^ 64 → (v ∈ ids ↔ RowSet.contains m v = true) := by
  obtain ⟨h1, h2⟩ := RowSet.C02_row_ids m h.1 (by
    intro e he
    obtain ⟨a, s, b, c⟩ := h.2 e he
    refine ⟨a, ?_⟩
    intro s' hs' o ho
    rw [b] at hs'; cases hs'
    exact c o ho)
  cases hr : RowSet.rowIds m with
  | none =>
    obtain ⟨e, he, hf⟩ := h2.1 hr
    obtain ⟨_, s, b, _⟩ := h.2 e he
    rw [b] at hf; cases hf
  | some ids =>
    refine ⟨ids, rfl, ?_, h1 ids hr⟩
    intro i hi
    unfold RowSet.rowIds at hr
    simp only at hr
    split at hr
    · cases hr
    · simp only [Option.some.injEq] at hr
      subst hr
      rw [List.mem_flatten] at hi
      obtain ⟨l, hl, hi⟩ := hi
      rw [List.mem_filterMap] at hl
      obtain ⟨e, he, hl⟩ := hl
      obtain ⟨a, s, b, c⟩ := h.2 e he
      rw [b] at hl
      simp only [Option.some.injEq] at hl
      subst hl
      rw [List.mem_map] at hi
      obtain ⟨o, ho, rfl⟩ := hi
      have := c o ho
      rw [RowSet.newFromParts_eq (by omega)]
      omega

/-! ### Association lists -/
section
variable {K W : Type} [DecidableEq K]

theorem getKey_nil (k : K) : getKey k ([] : List (K × W)) = none := rfl

theorem getKey_cons (k : K) (e : K × W) (m : List (K × W)) :
    getKey k (e :: m) = if e.1 = k then some e.2 else getKey k m := by
  unfold getKey
  rw [List.find?_cons]
  by_cases h : e.1 = k
  · simp [h]
  · rw [if_neg h]
    have : (e.1 == k) = false := by simpa using h
    rw [this]

theorem getKey_setKey (k j : K) (w : W) (m : List (K × W)) :
    getKey j (setKey k w m) = if j = k then some w else getKey j m := by
  induction m with
  | nil =>
    simp only [setKey, getKey_cons, getKey_nil, eq_comm]
  | cons e m ih =>
    simp only [setKey]
    split
    · rename_i h
      simp only [getKey_cons]
      by_cases hj : j = k
      · subst hj; simp
      · rw [if_neg (fun e => hj e.symm), if_neg hj, if_neg (by rw [h]; exact fun e => hj e.symm)]
    · rename_i h
      simp only [getKey_cons, ih]
      by_cases hj : j = k
      · subst hj; simp [h]
      · simp [hj]

theorem keys_setKey (k : K) (w : W) (m : List (K × W)) (x : K) :
    x ∈ (setKey k w m).map (·.1) ↔ x = k ∨ x ∈ m.map (·.1) := by
  induction m with
  | nil => simp [setKey]
  | cons e m ih =>
    simp only [setKey]
    split
    · rename_i h; simp [h]
    · simp only [List.map_cons, List.mem_cons, ih]
      constructor
      · rintro (h | h | h) <;> simp [h]
      · rintro (h | h | h) <;> simp [h]

theorem nodup_setKey (k : K) (w : W) (m : List (K × W)) (h : (m.map (·.1)).Nodup) :
    ((setKey k w m).map (·.1)).Nodup := by
  induction m with
  | nil => simp [setKey]
  | cons e m ih =>
    rw [List.map_cons, List.nodup_cons] at h
    simp only [setKey]
    split
    · rename_i he
      rw [List.map_cons, List.nodup_cons]
      exact ⟨by rw [← he]; exact h.1, h.2⟩
    · rename_i he
      rw [List.map_cons, List.nodup_cons]
      refine ⟨?_, ih h.2⟩
      rw [keys_setKey]
      rintro (h1 | h1)
      · exact he h1
      · exact h.1 h1

theorem getKey_some_mem {k : K} {w : W} {m : List (K × W)} (h : getKey k m = some w) : (k, w) ∈ m := by
  induction m with
  | nil => cases h
  | cons e m ih =>
    rw [getKey_cons] at h
    split at h
    · rename_i he
      cases h; subst he; exact List.mem_cons_self ..
    · exact List.mem_cons_of_mem _ (ih h)

theorem getKey_of_mem {k : K} {w : W} {m : List (K × W)} (hn : (m.map (·.1)).Nodup) (h : (k, w) ∈ m) :
    getKey k m = some w := by
  induction m with
  | nil => cases h
  | cons e m ih =>
    rw [List.map_cons, List.nodup_cons] at hn
    rw [getKey_cons]
    rcases List.mem_cons.1 h with h | h
    · subst h; simp
    · rw [if_neg, ih hn.2 h]
      intro he
      apply hn.1
      rw [he]
      exact List.mem_map_of_mem h

theorem getKey_perm {k : K} {m m' : List (K × W)} (hp : m'.Perm m) (hn : (m.map (·.1)).Nodup) :
    getKey k m' = getKey k m := by
  have hn' : (m'.map (·.1)).Nodup := (hp.map _).nodup_iff.2 hn
  cases h : getKey k m with
  | none =>
    cases h' : getKey k m' with
    | none => rfl
    | some w =>
      have := getKey_of_mem hn (hp.mem_iff.1 (getKey_some_mem h'))
      rw [h] at this; cases this
  | some w =>
    exact getKey_of_mem hn' (hp.mem_iff.2 (getKey_some_mem h))
end

section
variable {V : Type} [LinOrd V] [DecidableEq V] {W : Type}

/-- Keys strictly increasing. -/
def KSorted (m : List (V × W)) : Prop := m.Pairwise (fun a b => lt a.1 b.1 = true)

omit [DecidableEq V] in
theorem KSorted.nodup {m : List (V × W)} (h : KSorted m) : (m.map (·.1)).Nodup := by
  unfold List.Nodup
  rw [List.pairwise_map]
  exact h.imp (fun h => ne_of_lt h)

theorem mem_insertKey {k : V} {w : W} {m : List (V × W)} {e : V × W} (h : e ∈ insertKey k w m) :
    e = (k, w) ∨ e ∈ m := by
  induction m with
  | nil => simp [insertKey] at h; exact Or.inl h
  | cons x m ih =>
    simp only [insertKey] at h
    split at h
    · rcases List.mem_cons.1 h with h | h
      · exact Or.inl h
      · exact Or.inr h
    · split at h
      · rcases List.mem_cons.1 h with h | h
        · exact Or.inl h
        · exact Or.inr (List.mem_cons_of_mem _ h)
      · rcases List.mem_cons.1 h with h | h
        · exact Or.inr (by rw [h]; exact List.mem_cons_self ..)
        · rcases ih h with h | h
          · exact Or.inl h
          · exact Or.inr (List.mem_cons_of_mem _ h)

theorem ksorted_insertKey (k : V) (w : W) (m : List (V × W)) (h : KSorted m) : KSorted (insertKey k w m) := by
  unfold KSorted at h ⊢
  induction m with
  | nil => exact List.pairwise_singleton _ _
  | cons e m ih =>
    rw [List.pairwise_cons] at h
    simp only [insertKey]
    split
    · rename_i hlt
      refine List.Pairwise.cons ?_ (List.Pairwise.cons h.1 h.2)
      intro a ha
      rcases List.mem_cons.1 ha with rfl | ha
      · exact hlt
      · exact lt_trans hlt (h.1 a ha)
    · rename_i hlt
      split
      · rename_i he
        refine List.Pairwise.cons ?_ h.2
        intro a ha
        rw [← he]; exact h.1 a ha
      · rename_i he
        refine List.Pairwise.cons ?_ (ih h.2)
        intro a ha
        rcases mem_insertKey ha with rfl | ha
        · rw [not_lt_iff] at hlt
          exact lt_of_le_ne hlt he
        · exact h.1 a ha

theorem getKey_insertKey (k j : V) (w : W) (m : List (V × W)) (h : KSorted m) :
    getKey j (insertKey k w m) = if j = k then some w else getKey j m := by
  have hn := (ksorted_insertKey k w m h).nodup
  have hmem : ∀ e, e ∈ m → e.1 ≠ k → e ∈ insertKey k w m := by
    clear hn h
    intro e he hne
    induction m with
    | nil => cases he
    | cons x m ih =>
      simp only [insertKey]
      split
      · exact List.mem_cons_of_mem _ he
      · split
        · rename_i hx
          rcases List.mem_cons.1 he with rfl | he
          · exact absurd hx hne
          · exact List.mem_cons_of_mem _ he
        · rcases List.mem_cons.1 he with rfl | he
          · exact List.mem_cons_self ..
          · exact List.mem_cons_of_mem _ (ih he)
  have hk : (k, w) ∈ insertKey k w m := by
    clear hn hmem h
    induction m with
    | nil => simp [insertKey]
    | cons x m ih =>
      simp only [insertKey]
      split
      · exact List.mem_cons_self ..
      · split
        · exact List.mem_cons_self ..
        · exact List.mem_cons_of_mem _ ih
  split
  · rename_i hj; subst hj; exact getKey_of_mem hn hk
  · rename_i hj
    cases hg : getKey j m with
    | some x => exact getKey_of_mem hn (hmem _ (getKey_some_mem hg) hj)
    | none =>
      cases hg' : getKey j (insertKey k w m) with
      | none => rfl
      | some x =>
        rcases mem_insertKey (getKey_some_mem hg') with h1 | h1
        · cases h1; exact absurd rfl hj
        · rw [getKey_of_mem h.nodup h1] at hg; cases hg
end

theorem allSome_some {α : Type} (l : List (Option α)) (r : List α) : allSome l = some r ↔ l = r.map some := by
  induction l generalizing r with
  | nil => cases r <;> simp [allSome]
  | cons x l ih =>
    cases x with
    | none => cases r <;> simp [allSome]
    | some x =>
      cases r with
      | nil => simp [allSome]
      | cons y r =>
        simp only [allSome, Option.map_eq_some_iff, List.map_cons, List.cons.injEq, Option.some.injEq]
        constructor
        · rintro ⟨a, ha, h1, rfl⟩
          exact ⟨h1, (ih _).1 ha⟩
        · rintro ⟨rfl, h⟩
          exact ⟨r, (ih _).2 h, rfl, rfl⟩

theorem mem_dedup (l : List Nat) (x : Nat) : x ∈ dedup l ↔ x ∈ l := by
  fun_induction dedup l with
  | case1 => simp
  | case2 => simp
  | case3 y xs ih => rw [ih]; simp
  | case4 y z xs hne ih => simp only [List.mem_cons, ih]

end Verif.Scalar
