import Verif.RepDef.LemmasListPage
/-!
# Lemmas on levels: reading one layer of lists
-/
namespace Verif.RepDef
open Verif.Mini (Layer RepDefs)

/-- A page of lists as it is read: its rows (with the levels of the items), and what its layers say. -/
structure Part (V : Type) where
  nulls : Bool
  empties : Bool
  w : Bool
  rows : List (Option (List (Nat × V)))

def Part.page {V : Type} (inner outer : List Layer) (P : Part V) : RepDefs := listPage inner outer P.nulls P.empties P.w P.rows

/-- What reading needs: the list layer has levels of its own, or no list starts with something null, or there are no
definition levels. -/
def GoodFirst {V : Type} (P : Part V) : Prop :=
  P.nulls = true ∨ P.empties = true ∨ P.w = false ∨ ∀ r ∈ P.rows, ∀ e xs, r = some (e :: xs) → e.1 = 0

structure PartOk {V : Type} (inner outer : List Layer) (P : Part V) : Prop where
  ok : ListOk inner outer P.nulls P.empties P.w P.rows
  first : GoodFirst P

def Part.nl {V : Type} (inner : List Layer) (P : Part V) : Nat := (listLevels P.nulls P.empties (1 + defSum inner)).1
def Part.el {V : Type} (inner : List Layer) (P : Part V) : Nat := (listLevels P.nulls P.empties (1 + defSum inner)).2

/-- The levels of the rows. -/
def Part.lrows {V : Type} (P : Part V) : List (Option (List Nat)) := P.rows.map (Option.map (List.map (·.1)))

theorem levels_facts {V : Type} (inner outer : List Layer) (P : Part V) (h : ∀ l ∈ inner, isItem l) :
    (∀ d, d ≤ defSum inner → (0 :: levelsToRep (P.page inner outer).layers 0)[d]? = some 0) ∧
    (P.nulls = true → (0 :: levelsToRep (P.page inner outer).layers 0)[P.nl inner]? = some 1) ∧
    (P.empties = true → (0 :: levelsToRep (P.page inner outer).layers 0)[P.el inner]? = some 1) := by
  have ht : 0 :: levelsToRep (P.page inner outer).layers 0 =
      List.replicate (defSum inner + 1) 0 ++ levelsToRep (listLayer P.nulls P.empties :: outer) 0 := by
    simp only [Part.page, listPage]
    rw [levelsToRep_items inner h, List.replicate_succ, List.cons_append]
  rw [ht]
  refine ⟨?_, ?_, ?_⟩
  · intro d hd
    rw [List.getElem?_append_left (by simp; omega), List.getElem?_replicate, if_pos (by omega)]
  · intro hn
    rw [List.getElem?_append_right (by simp [Part.nl, hn]; cases P.empties <;> simp [listLevels] <;> omega)]
    rw [List.length_replicate]
    cases he : P.empties
    · simp only [Part.nl, hn, he, listLevels, listLayer, levelsToRep]
      rw [show 1 + defSum inner - (defSum inner + 1) = 0 by omega]; rfl
    · simp only [Part.nl, hn, he, listLevels, listLayer, levelsToRep]
      rw [show 1 + defSum inner - (defSum inner + 1) = 0 by omega]; rfl
  · intro he
    rw [List.getElem?_append_right (by simp [Part.el, he]; cases P.nulls <;> simp [listLevels] <;> omega)]
    rw [List.length_replicate]
    cases hn : P.nulls
    · simp only [Part.el, hn, he, listLevels, listLayer, levelsToRep]
      rw [show 1 + defSum inner - (defSum inner + 1) = 0 by omega]; rfl
    · simp only [Part.el, hn, he, listLevels, listLayer, levelsToRep]
      rw [show 1 + defSum inner + 1 - (defSum inner + 1) = 1 by omega]; rfl

theorem shown_append (rd : RepDefs) (a b : List Nat) : shown rd (a ++ b) = shown rd a ++ shown rd b := by
  unfold shown; rw [List.filter_append]

theorem shown_cons (rd : RepDefs) (a : Nat) (b : List Nat) : shown rd (a :: b) = shown rd [a] ++ shown rd b := by
  rw [← shown_append]; rfl

theorem shown_items (rd : RepDefs) (n : Nat) (h : ∀ d, d ≤ n → (0 :: levelsToRep rd.layers 0)[d]? = some 0) (ds : List Nat)
    (hd : ∀ d ∈ ds, d ≤ n) : shown rd ds = ds := by
  unfold shown
  rw [List.filter_eq_self]
  intro d hm
  rw [h d (hd d hm)]; rfl

theorem shown_special (rd : RepDefs) (d k : Nat) (h : (0 :: levelsToRep rd.layers 0)[d]? = some (k + 1)) : shown rd [d] = [] := by
  simp only [shown, List.filter_cons, h]
  simp

theorem lt_of_get {A : Type} (l : List A) (i : Nat) (x : A) (h : l[i]? = some x) : i < l.length := by
  rw [List.getElem?_eq_some_iff] at h
  exact h.1

/-- The levels of the items are those that show. -/
theorem shown_defOut (rd : RepDefs) (n nl el : Nat) (nulls empties : Bool)
    (h0 : ∀ d, d ≤ n → (0 :: levelsToRep rd.layers 0)[d]? = some 0)
    (h1 : nulls = true → (0 :: levelsToRep rd.layers 0)[nl]? = some 1)
    (h2 : empties = true → (0 :: levelsToRep rd.layers 0)[el]? = some 1) :
    ∀ rows : List (Option (List Nat)), (∀ d ∈ flat rows, d ≤ n) → (nulls = false → ∀ r ∈ rows, r.isSome = true) →
      (empties = false → rows.any isEmptyRow = false) →
      (∀ d ∈ defOut nl el rows, d < (0 :: levelsToRep rd.layers 0).length) ∧ flat rows = shown rd (defOut nl el rows)
  | [], _, _, _ => by simp [defOut, flat, shown]
  | none :: rs, hd, hn, he => by
    have hnt : nulls = true := by
      cases nulls with
      | true => rfl
      | false => have := hn rfl none (by simp); simp at this
    obtain ⟨i1, i2⟩ := shown_defOut rd n nl el nulls empties h0 h1 h2 rs hd (fun h r hr => hn h r (by simp [hr]))
      (fun h => by have := he h; simp only [List.any_cons, Bool.or_eq_false_iff] at this; exact this.2)
    refine ⟨?_, ?_⟩
    · intro d hm
      simp only [defOut, List.mem_cons] at hm
      rcases hm with hm | hm
      · subst hm; exact lt_of_get _ _ _ (h1 hnt)
      · exact i1 d hm
    · rw [defOut, shown_cons, shown_special rd nl 0 (h1 hnt), ← i2]; rfl
  | some [] :: rs, hd, hn, he => by
    have het : empties = true := by
      cases empties with
      | true => rfl
      | false => have := he rfl; simp [isEmptyRow] at this
    obtain ⟨i1, i2⟩ := shown_defOut rd n nl el nulls empties h0 h1 h2 rs hd (fun h r hr => hn h r (by simp [hr]))
      (fun h => by have := he h; simp only [List.any_cons, Bool.or_eq_false_iff] at this; exact this.2)
    refine ⟨?_, ?_⟩
    · intro d hm
      simp only [defOut, List.mem_cons] at hm
      rcases hm with hm | hm
      · subst hm; exact lt_of_get _ _ _ (h2 het)
      · exact i1 d hm
    · rw [defOut, shown_cons, shown_special rd el 0 (h2 het), ← i2]; rfl
  | some (x :: xs) :: rs, hd, hn, he => by
    have hf : flat (some (x :: xs) :: rs) = x :: (xs ++ flat rs) := rfl
    rw [hf] at hd
    obtain ⟨i1, i2⟩ := shown_defOut rd n nl el nulls empties h0 h1 h2 rs (fun d hm => hd d (by simp [hm])) (fun h r hr => hn h r (by simp [hr]))
      (fun h => by have := he h; simp only [List.any_cons, Bool.or_eq_false_iff] at this; exact this.2)
    refine ⟨?_, ?_⟩
    · intro d hm
      simp only [defOut, List.mem_cons, List.mem_append] at hm
      rcases hm with hm | hm | hm
      · subst hm; exact lt_of_get _ _ _ (h0 d (hd d (by simp)))
      · exact lt_of_get _ _ _ (h0 d (hd d (by simp [hm])))
      · exact i1 d hm
    · rw [hf, defOut, shown_cons, shown_append, ← i2, shown_items rd n h0 [x] (by intro d hm; simp only [List.mem_singleton] at hm; subst hm; exact hd d (by simp)),
        shown_items rd n h0 xs (fun d hm => hd d (by simp [hm]))]
      rfl

theorem flat_lrows {V : Type} (P : Part V) : flat P.lrows = (flat P.rows).map (·.1) := flat_map _ _

theorem lrows_facts {V : Type} (inner outer : List Layer) (P : Part V) (h : PartOk inner outer P) :
    (∀ d ∈ flat P.lrows, d ≤ defSum inner) ∧ (P.nulls = false → ∀ r ∈ P.lrows, r.isSome = true) ∧
    (P.empties = false → P.lrows.any isEmptyRow = false) := by
  refine ⟨?_, ?_, ?_⟩
  · intro d hd
    rw [flat_lrows] at hd
    obtain ⟨e, he, rfl⟩ := List.mem_map.mp hd
    exact h.ok.levels e he
  · intro h0 r hr
    obtain ⟨r', hr', rfl⟩ := List.mem_map.mp hr
    simpa using h.ok.nulls h0 r' hr'
  · intro h0
    unfold Part.lrows
    rw [anyEmpty_map]
    exact h.ok.empties h0

theorem part_in {V : Type} (inner outer : List Layer) (P : Part V) (h : PartOk inner outer P) :
    PageIn inner (P.page inner outer, (flat P.rows).map (·.1)) := by
  obtain ⟨l1, l2, l3⟩ := levels_facts inner outer P h.ok.innerItems
  obtain ⟨f1, f2, f3⟩ := lrows_facts inner outer P h
  refine ⟨⟨_, rfl⟩, ?_, ?_⟩
  · intro ds hds
    simp only [Part.page, listPage] at hds
    split at hds
    · simp only [Option.some.injEq] at hds
      subst hds
      have := shown_defOut (P.page inner outer) (defSum inner) (P.nl inner) (P.el inner) P.nulls P.empties l1 l2 l3 P.lrows f1 f2 f3
      rw [flat_lrows] at this
      exact this
    · simp at hds
  · intro hm
    simp [Part.page, listPage, h.ok.innerDefs hm]

/-! ### Offsets -/

/-- Where rows start. -/
def startsFrom {A : Type} : List (Option (List A)) → Nat → List Nat
  | [], _ => []
  | r :: rs, k => k :: startsFrom rs (k + (rowVals r).length)

theorem startsFrom_sums {A : Type} : ∀ (rows : List (Option (List A))) (k : Nat),
    k :: sums rows k = startsFrom rows k ++ [k + (flat rows).length]
  | [], k => by simp [sums, startsFrom, flat]
  | r :: rs, k => by
    simp only [sums, startsFrom, List.cons_append]
    rw [startsFrom_sums rs]
    simp [flat, Nat.add_assoc]

theorem startsFrom_append {A : Type} : ∀ (rs ss : List (Option (List A))) (k : Nat),
    startsFrom (rs ++ ss) k = startsFrom rs k ++ startsFrom ss (k + (flat rs).length)
  | [], ss, k => by simp [startsFrom, flat]
  | r :: rs, ss, k => by simp [startsFrom, startsFrom_append rs ss, flat, Nat.add_assoc]

theorem startsFrom_length {A : Type} : ∀ (rs : List (Option (List A))) (k : Nat), (startsFrom rs k).length = rs.length
  | [], _ => rfl
  | r :: rs, k => by simp [startsFrom, startsFrom_length rs]

theorem startsFrom_map {A B : Type} (f : A → B) : ∀ (rows : List (Option (List A))) (k : Nat),
    startsFrom (rows.map (Option.map (List.map f))) k = startsFrom rows k
  | [], _ => rfl
  | r :: rs, k => by
    have h : (rowVals (Option.map (List.map f) r)).length = (rowVals r).length := by cases r <;> simp [rowVals]
    simp only [List.map_cons, startsFrom, h, startsFrom_map f rs]

/-- The first definition level of each row. -/
def firsts (nl el : Nat) : List (Option (List Nat)) → List Nat
  | [] => []
  | none :: rs => nl :: firsts nl el rs
  | some [] :: rs => el :: firsts nl el rs
  | some (x :: _) :: rs => x :: firsts nl el rs

theorem offsetsWith_items (nl el : Nat) (rrest drest : List Nat) : ∀ (xs : List Nat) (len : Nat),
    offsetsWith nl el (List.replicate xs.length 0 ++ rrest) (xs ++ drest) len = offsetsWith nl el rrest drest (len + xs.length)
  | [], len => by simp
  | x :: xs, len => by
    rw [List.length_cons, List.replicate_succ, List.cons_append, List.cons_append, offsetsWith]
    simp only [ne_eq, not_true_eq_false, if_false]
    rw [offsetsWith_items nl el rrest drest xs (len + 1)]
    congr 1
    omega

theorem offsetsWith_rows (nl el : Nat) : ∀ (rows : List (Option (List Nat))) (len : Nat),
    (∀ r ∈ rows, r = none → nl ≠ 0) → (∀ r ∈ rows, r = some [] → el ≠ 0 ∧ el ≠ nl) →
    (∀ r ∈ rows, ∀ x xs, r = some (x :: xs) → x = 0 ∨ (x ≠ nl ∧ x ≠ el ∧ x ≤ max nl el)) →
    offsetsWith nl el (repOut rows) (defOut nl el rows) len =
      ⟨List.replicate rows.length 0, firsts nl el rows, startsFrom rows len, rows.map Option.isSome, len + (flat rows).length⟩
  | [], len, _, _, _ => by simp [repOut, defOut, offsetsWith, firsts, startsFrom, flat]
  | none :: rs, len, h1, h2, h3 => by
    have ih := offsetsWith_rows nl el rs len (fun r hr => h1 r (by simp [hr])) (fun r hr => h2 r (by simp [hr])) (fun r hr => h3 r (by simp [hr]))
    have hnl := h1 none (by simp) rfl
    simp only [repOut, defOut, offsetsWith]
    rw [if_pos (by decide), if_neg hnl, if_neg (by omega), if_pos trivial, ih]
    simp [List.replicate_succ, firsts, startsFrom, flat, rowVals]
  | some [] :: rs, len, h1, h2, h3 => by
    have ih := offsetsWith_rows nl el rs len (fun r hr => h1 r (by simp [hr])) (fun r hr => h2 r (by simp [hr])) (fun r hr => h3 r (by simp [hr]))
    obtain ⟨hel, hne⟩ := h2 (some []) (by simp) rfl
    simp only [repOut, defOut, offsetsWith]
    rw [if_pos (by decide), if_neg hel, if_neg (by omega), if_neg hne, if_pos trivial, ih]
    simp [List.replicate_succ, firsts, startsFrom, flat, rowVals]
  | some (x :: xs) :: rs, len, h1, h2, h3 => by
    have ih := offsetsWith_rows nl el rs (len + 1 + xs.length) (fun r hr => h1 r (by simp [hr])) (fun r hr => h2 r (by simp [hr])) (fun r hr => h3 r (by simp [hr]))
    have hx := h3 (some (x :: xs)) (by simp) x xs rfl
    have hlen : len + 1 + xs.length + (flat rs).length = len + (flat (some (x :: xs) :: rs)).length := by
      rw [flat_some]; simp; omega
    have hst : startsFrom (some (x :: xs) :: rs) len = len :: startsFrom rs (len + 1 + xs.length) := by
      simp only [startsFrom, rowVals, Option.getD_some, List.length_cons]
      rw [show len + (xs.length + 1) = len + 1 + xs.length by omega]
    simp only [repOut, defOut, offsetsWith]
    rw [if_pos (by decide), offsetsWith_items, ih, hlen, hst]
    by_cases h0 : x = 0
    · rw [if_pos h0]
      simp [List.replicate_succ, firsts]
    · rw [if_neg h0]
      rcases hx with hx | ⟨e1, e2, e3⟩
      · exact absurd hx h0
      · rw [if_neg (by omega), if_neg e1, if_neg e2]
        simp [List.replicate_succ, firsts]

theorem offsetsPlain_items (rrest : List Nat) : ∀ (n : Nat) (len : Nat),
    offsetsPlain (List.replicate n 0 ++ rrest) len = offsetsPlain rrest (len + n)
  | 0, len => by simp
  | n + 1, len => by
    rw [List.replicate_succ, List.cons_append, offsetsPlain]
    simp only [ne_eq, not_true_eq_false, if_false]
    rw [offsetsPlain_items rrest n (len + 1)]
    congr 1
    omega

theorem offsetsPlain_rows {A : Type} : ∀ (rows : List (Option (List A))) (len i : Nat), specialsOf rows i = [] →
    offsetsPlain (repOut rows) len =
      ⟨List.replicate rows.length 0, [], startsFrom rows len, rows.map Option.isSome, len + (flat rows).length⟩
  | [], len, i, _ => by simp [repOut, offsetsPlain, startsFrom, flat]
  | none :: rs, len, i, h => by simp [specialsOf] at h
  | some [] :: rs, len, i, h => by simp [specialsOf] at h
  | some (x :: xs) :: rs, len, i, h => by
    simp only [specialsOf] at h
    have ih := offsetsPlain_rows rs (len + 1 + xs.length) (i + 1) h
    have hlen : len + 1 + xs.length + (flat rs).length = len + (flat (some (x :: xs) :: rs)).length := by
      rw [flat_some]; simp; omega
    have hst : startsFrom (some (x :: xs) :: rs) len = len :: startsFrom rs (len + 1 + xs.length) := by
      simp only [startsFrom, rowVals, Option.getD_some, List.length_cons]
      rw [show len + (xs.length + 1) = len + 1 + xs.length by omega]
    simp only [repOut, offsetsPlain]
    rw [offsetsPlain_items, ih, hlen, hst]
    simp [List.replicate_succ]

theorem repOut_length (nl el : Nat) : ∀ rows : List (Option (List Nat)), (repOut rows).length = (defOut nl el rows).length
  | [] => rfl
  | none :: rs => by simp [repOut, defOut, repOut_length nl el rs]
  | some [] :: rs => by simp [repOut, defOut, repOut_length nl el rs]
  | some (x :: xs) :: rs => by simp [repOut, defOut, repOut_length nl el rs]

theorem firsts_length (nl el : Nat) : ∀ rows : List (Option (List Nat)), (firsts nl el rows).length = rows.length
  | [] => rfl
  | none :: rs => by simp [firsts, firsts_length nl el rs]
  | some [] :: rs => by simp [firsts, firsts_length nl el rs]
  | some (x :: xs) :: rs => by simp [firsts, firsts_length nl el rs]

theorem firsts_mem (nl el : Nat) : ∀ (rows : List (Option (List Nat))), ∀ d ∈ firsts nl el rows, d ∈ defOut nl el rows
  | [], d, h => by simp [firsts] at h
  | none :: rs, d, h => by
    simp only [firsts, List.mem_cons] at h
    simp only [defOut, List.mem_cons]
    exact h.imp id (firsts_mem nl el rs d)
  | some [] :: rs, d, h => by
    simp only [firsts, List.mem_cons] at h
    simp only [defOut, List.mem_cons]
    exact h.imp id (firsts_mem nl el rs d)
  | some (x :: xs) :: rs, d, h => by
    simp only [firsts, List.mem_cons] at h
    simp only [defOut, List.mem_cons, List.mem_append]
    exact h.imp id (fun h => Or.inr (firsts_mem nl el rs d h))

/-- The state of the unraveler of a page after the lists and `k` layers of structs around them. -/
structure After {V : Type} (inner outer : List Layer) (k : Nat) (P : Part V) (u : Unraveler) : Prop where
  layers : u.layers = (P.page inner outer).layers
  toRep : u.toRep = 0 :: levelsToRep (P.page inner outer).layers 0
  cmp : u.defCmp = defSum ((P.page inner outer).layers.take (inner.length + 1 + k))
  repCmp : u.repCmp = 1
  cur : u.cur = inner.length + 1 + k
  defs : u.defs = if P.w then some (firsts (P.nl inner) (P.el inner) P.lrows) else none

theorem layer_list {V : Type} (inner outer : List Layer) (P : Part V) :
    (P.page inner outer).layers[inner.length]? = some (listLayer P.nulls P.empties) := by
  simp [Part.page, listPage]

theorem unravelLevels_list (n e : Bool) (v : Nat) : unravelLevels (listLayer n e) v = some (listLevels n e (1 + v)) := by
  cases n <;> cases e <;> simp [listLayer, unravelLevels, listLevels] <;> omega

/-- Reading the offsets of one page. -/
theorem offsets_step {V : Type} (inner outer : List Layer) (P : Part V) (h : PartOk inner outer P) (offs : List Nat)
    (bits : Option (List Bool)) :
    ∃ u, (advance inner.length (P.page inner outer)).offsets offs bits =
        some (u, offs.dropLast ++ startsFrom P.rows (offs.getLastD 0) ++ [offs.getLastD 0 + (flat P.rows).length],
          bits.map (· ++ P.rows.map Option.isSome)) ∧ After inner outer 0 P u := by
  have hl := layer_list inner outer P
  have hdc : defSum ((P.page inner outer).layers.take inner.length) = defSum inner := by
    simp [Part.page, listPage]
  have hdc' : defSum ((P.page inner outer).layers.take (inner.length + 1 + 0)) = defSum inner + (listLayer P.nulls P.empties).defLevels := by
    rw [Nat.add_zero, defSum_take_succ _ _ (lt_of_get _ _ _ hl), hdc]
    congr 1
    rw [List.getElem?_eq_some_iff] at hl
    obtain ⟨_, hl⟩ := hl
    rw [hl]
  obtain ⟨f1, f2, f3⟩ := lrows_facts inner outer P h
  have hst : startsFrom P.lrows (offs.getLastD 0) = startsFrom P.rows (offs.getLastD 0) := startsFrom_map _ _ _
  have hfl : (flat P.lrows).length = (flat P.rows).length := by rw [flat_lrows, List.length_map]
  have hsm : P.lrows.map Option.isSome = P.rows.map Option.isSome := by
    unfold Part.lrows
    rw [List.map_map]
    apply List.map_congr_left
    intro r _
    simp
  cases hw : P.w with
  | true =>
    have hds : (P.page inner outer).defs = some (defOut (P.nl inner) (P.el inner) P.lrows) := by
      simp [Part.page, listPage, hw, Part.nl, Part.el, Part.lrows]
    have hrep : (P.page inner outer).rep = some (repOut P.lrows) := by
      simp only [Part.page, listPage, Part.lrows, repOut_map]
    have hrows := offsetsWith_rows (P.nl inner) (P.el inner) P.lrows (offs.getLastD 0)
      (by
        intro r hr h0
        have hnt : P.nulls = true := by
          cases hn : P.nulls with
          | true => rfl
          | false => have := f2 hn r hr; rw [h0] at this; simp at this
        simp only [Part.nl, hnt]; cases P.empties <;> simp [listLevels])
      (by
        intro r hr h0
        have het : P.empties = true := by
          cases he : P.empties with
          | true => rfl
          | false =>
            have := List.any_eq_false.mp (f3 he) r hr
            rw [h0] at this; simp [isEmptyRow] at this
        simp only [Part.nl, Part.el, het]; cases P.nulls <;> simp [listLevels])
      (by
        intro r hr x xs h0
        have hx : x ≤ defSum inner := f1 x (by
          rw [flat, List.mem_flatMap]; exact ⟨r, hr, by rw [h0]; simp [rowVals]⟩)
        by_cases hx0 : x = 0
        · exact Or.inl hx0
        · right
          rcases h.first with hf | hf | hf | hf
          · simp only [Part.nl, Part.el, hf]; cases P.empties <;> simp [listLevels] <;> omega
          · simp only [Part.nl, Part.el, hf]; cases P.nulls <;> simp [listLevels] <;> omega
          · rw [hw] at hf; simp at hf
          · exfalso
            obtain ⟨r', hr', hrr⟩ := List.mem_map.mp hr
            rw [h0] at hrr
            cases hr0 : r' with
            | none => rw [hr0] at hrr; simp at hrr
            | some l =>
              rw [hr0] at hrr
              cases l with
              | nil => simp at hrr
              | cons e es =>
                simp only [Option.map_some, List.map_cons, Option.some.injEq, List.cons.injEq] at hrr
                have := hf r' hr' e es hr0
                omega)
    refine ⟨⟨some (List.replicate P.lrows.length 0), some (firsts (P.nl inner) (P.el inner) P.lrows),
      0 :: levelsToRep (P.page inner outer).layers 0, (P.page inner outer).layers,
      defSum inner + (listLayer P.nulls P.empties).defLevels, 1, inner.length + 1⟩, ?_, ?_⟩
    · simp only [Unraveler.offsets, advance, hrep, hl, hdc, unravelLevels_list, hds]
      rw [if_pos (repOut_length _ _ _)]
      rw [show (listLevels P.nulls P.empties (1 + defSum inner)).1 = P.nl inner from rfl,
        show (listLevels P.nulls P.empties (1 + defSum inner)).2 = P.el inner from rfl, hrows]
      simp only [hst, hfl, hsm]
    · exact ⟨rfl, rfl, hdc'.symm, rfl, rfl, by simp [hw]⟩
  | false =>
    have hds : (P.page inner outer).defs = none := by simp [Part.page, listPage, hw]
    have hrep : (P.page inner outer).rep = some (repOut P.rows) := rfl
    have hrows := offsetsPlain_rows P.rows (offs.getLastD 0) 0 (h.ok.specials hw)
    refine ⟨⟨some ((List.replicate P.rows.length 0 ++ (repOut P.rows).drop P.rows.length).take
        (offs.dropLast ++ startsFrom P.rows (offs.getLastD 0)).length), none, 0 :: levelsToRep (P.page inner outer).layers 0,
        (P.page inner outer).layers, defSum inner + (listLayer P.nulls P.empties).defLevels, 1, inner.length + 1⟩, ?_, ?_⟩
    · simp only [Unraveler.offsets, advance, hrep, hl, hdc, unravelLevels_list, hds, hrows, List.length_replicate]
    · exact ⟨rfl, rfl, hdc'.symm, rfl, rfl, by simp [hw]⟩

/-- Reading the offsets of pages. -/
theorem offsetsFrom_rows {V : Type} (inner outer : List Layer) : ∀ (parts : List (Part V)) (pre : List (Option (List (Nat × V))))
    (offs : List Nat) (bits : Option (List Bool)), (∀ P ∈ parts, PartOk inner outer P) → offs.dropLast = startsFrom pre 0 →
      offs.getLastD 0 = (flat pre).length → (parts ≠ [] ∨ offs ≠ []) →
      ∃ zs : List (Part V × Unraveler), zs.map (·.1) = parts ∧ (∀ z ∈ zs, After inner outer 0 z.1 z.2) ∧
        offsetsFrom (parts.map fun P => advance inner.length (P.page inner outer)) offs bits =
          some (zs.map (·.2), 0 :: sums (pre ++ parts.flatMap Part.rows) 0, bits.map (· ++ (parts.flatMap Part.rows).map Option.isSome))
  | [], pre, offs, bits, _, h1, h2, h3 => by
    have hne : offs ≠ [] := by simpa using h3
    refine ⟨[], rfl, by simp, ?_⟩
    have hof : offs = 0 :: sums pre 0 := by
      rw [startsFrom_sums, ← h1, Nat.zero_add, ← h2]
      conv => lhs; rw [← List.dropLast_concat_getLast hne]
      rw [List.getLastD_eq_getLast?, List.getLast?_eq_some_getLast hne]
      rfl
    simp only [List.map_nil, offsetsFrom, List.flatMap_nil, List.append_nil]
    rw [← hof]
    cases bits <;> simp
  | P :: parts, pre, offs, bits, hp, h1, h2, _ => by
    obtain ⟨u, hu, ha⟩ := offsets_step inner outer P (hp P (by simp)) offs bits
    rw [h1, h2] at hu
    have e1 : startsFrom pre 0 ++ startsFrom P.rows (flat pre).length = startsFrom (pre ++ P.rows) 0 := by
      rw [startsFrom_append, Nat.zero_add]
    have e2 : (flat pre).length + (flat P.rows).length = (flat (pre ++ P.rows)).length := by
      simp [flat]
    rw [e1, e2] at hu
    obtain ⟨zs, hz1, hz2, hz3⟩ := offsetsFrom_rows inner outer parts (pre ++ P.rows)
      (startsFrom (pre ++ P.rows) 0 ++ [(flat (pre ++ P.rows)).length]) (bits.map (· ++ P.rows.map Option.isSome))
      (fun Q hQ => hp Q (by simp [hQ])) (by simp) (by simp) (Or.inr (by simp))
    refine ⟨(P, u) :: zs, by simp [hz1], ?_, ?_⟩
    · intro z hz
      simp only [List.mem_cons] at hz
      rcases hz with hz | hz
      · subst hz; exact ha
      · exact hz2 z hz
    · rw [List.map_cons, offsetsFrom, hu]
      simp only
      rw [hz3]
      simp only [Option.map_some, List.map_cons, List.flatMap_cons, List.append_assoc, Option.map_map, List.map_append]
      congr 3
      cases bits <;> simp

/-! ### Structs around lists -/

theorem layer_outer {V : Type} (inner outer : List Layer) (P : Part V) (k : Nat) (hk : k < outer.length) :
    (P.page inner outer).layers[inner.length + 1 + k]? = some outer[k] := by
  simp only [Part.page, listPage]
  rw [List.getElem?_append_right (by omega), show inner.length + 1 + k - inner.length = k + 1 by omega, List.getElem?_cons_succ,
    List.getElem?_eq_getElem hk]

theorem seenValid_all (toRep : List Nat) (k cmp : Nat) : ∀ ds : List Nat, (∀ d ∈ ds, ∃ j, toRep[d]? = some j ∧ j ≤ k) → (∀ d ∈ ds, d ≤ cmp) →
    seenValid toRep k cmp ds = some (List.replicate ds.length true)
  | [], _, _ => rfl
  | d :: ds, h, hc => by
    obtain ⟨j, hj, hjk⟩ := h d (by simp)
    rw [seenValid, seenValid_all toRep k cmp ds (fun x hx => h x (by simp [hx])) (fun x hx => hc x (by simp [hx])), hj]
    simp only
    rw [if_pos hjk]
    simp [List.replicate_succ, hc d (by simp)]

theorem defSum_take_le (layers : List Layer) (i j : Nat) (h : i ≤ j) : defSum (layers.take i) ≤ defSum (layers.take j) := by
  rw [show j = i + (j - i) by omega, List.take_add]
  simp [defSum]

/-- The first levels of rows are valid for the structs around. -/
theorem firsts_ok {V : Type} (inner outer : List Layer) (P : Part V) (h : PartOk inner outer P) :
    ∀ d ∈ firsts (P.nl inner) (P.el inner) P.lrows,
      (∃ j, (0 :: levelsToRep (P.page inner outer).layers 0)[d]? = some j ∧ j ≤ 1) ∧
      d ≤ defSum inner + (listLayer P.nulls P.empties).defLevels := by
  obtain ⟨l1, l2, l3⟩ := levels_facts inner outer P h.ok.innerItems
  obtain ⟨f1, f2, f3⟩ := lrows_facts inner outer P h
  have key : ∀ rows : List (Option (List Nat)), (∀ d ∈ flat rows, d ≤ defSum inner) → (P.nulls = false → ∀ r ∈ rows, r.isSome = true) →
      (P.empties = false → rows.any isEmptyRow = false) → ∀ d ∈ firsts (P.nl inner) (P.el inner) rows,
      d ≤ defSum inner ∨ (d = P.nl inner ∧ P.nulls = true) ∨ (d = P.el inner ∧ P.empties = true) := by
    intro rows
    induction rows with
    | nil => intro _ _ _ d hd; simp [firsts] at hd
    | cons r rs ih =>
      intro g1 g2 g3 d hd
      have ih := ih (fun d hd => g1 d (by rw [flat, List.flatMap_cons]; exact List.mem_append_right _ hd)) (fun h r hr => g2 h r (by simp [hr]))
        (fun h => by have := g3 h; simp only [List.any_cons, Bool.or_eq_false_iff] at this; exact this.2) d
      cases r with
      | none =>
        simp only [firsts, List.mem_cons] at hd
        rcases hd with hd | hd
        · refine Or.inr (Or.inl ⟨hd, ?_⟩)
          cases hn : P.nulls with
          | true => rfl
          | false => have := g2 hn none (by simp); simp at this
        · exact ih hd
      | some l =>
        cases l with
        | nil =>
          simp only [firsts, List.mem_cons] at hd
          rcases hd with hd | hd
          · refine Or.inr (Or.inr ⟨hd, ?_⟩)
            cases hn : P.empties with
            | true => rfl
            | false => have := g3 hn; simp [isEmptyRow] at this
          · exact ih hd
        | cons x xs =>
          simp only [firsts, List.mem_cons] at hd
          rcases hd with hd | hd
          · subst hd; exact Or.inl (g1 d (by rw [flat_some]; simp))
          · exact ih hd
  intro d hd
  rcases key P.lrows f1 f2 f3 d hd with hd | ⟨hd, hn⟩ | ⟨hd, hn⟩
  · exact ⟨⟨0, l1 d hd, by omega⟩, by omega⟩
  · subst hd
    refine ⟨⟨1, l2 hn, by omega⟩, ?_⟩
    simp only [Part.nl, hn]; cases P.empties <;> simp [listLevels, listLayer, Layer.defLevels] <;> omega
  · subst hd
    refine ⟨⟨1, l3 hn, by omega⟩, ?_⟩
    simp only [Part.el, hn]; cases P.nulls <;> simp [listLevels, listLayer, Layer.defLevels] <;> omega

theorem cmp_list {V : Type} (inner outer : List Layer) (P : Part V) (k : Nat) :
    defSum inner + (listLayer P.nulls P.empties).defLevels ≤ defSum ((P.page inner outer).layers.take (inner.length + 1 + k)) := by
  have hl := layer_list inner outer P
  refine Nat.le_trans ?_ (defSum_take_le _ (inner.length + 1) _ (by omega))
  rw [defSum_take_succ _ _ (lt_of_get _ _ _ hl)]
  rw [List.getElem?_eq_some_iff] at hl
  obtain ⟨_, hl⟩ := hl
  rw [hl]
  simp [Part.page, listPage]

theorem lrows_length {V : Type} (P : Part V) : P.lrows.length = P.rows.length := by simp [Part.lrows]

/-- Reading one layer of structs around lists. -/
theorem unravelValidity_outer {V : Type} (inner outer : List Layer) (k : Nat) (hk : k < outer.length) (zs : List (Part V × Unraveler))
    (hne : zs ≠ []) (hp : ∀ z ∈ zs, PartOk inner outer z.1) (ha : ∀ z ∈ zs, After inner outer k z.1 z.2) :
    ∃ (zs' : List (Part V × Unraveler)) (bits : Option (List Bool)), zs'.map (·.1) = zs.map (·.1) ∧
      (∀ z ∈ zs', After inner outer (k + 1) z.1 z.2) ∧ unravelValidity (zs.map (·.2)) = some (zs'.map (·.2), bits) ∧
      (bits = none ∨ bits = some (List.replicate (zs.flatMap fun z => z.1.rows).length true)) := by
  have hitem : isItem outer[k] := by
    cases zs with
    | nil => exact absurd rfl hne
    | cons z zs => exact (hp z (by simp)).ok.outerItems _ (List.getElem_mem hk)
  have hflag : (zs.map (·.2)).mapM Unraveler.allValid = some (zs.map fun _ => isAllValid outer[k]) := by
    rw [mapM_some_iff, List.map_map, List.map_map]
    apply List.map_congr_left
    intro z hz
    have h := ha z hz
    simp only [Function.comp, Unraveler.allValid, h.layers, h.cur]
    rw [layer_outer _ _ _ _ hk]
    rfl
  have hcmp : ∀ z ∈ zs, defSum ((z.1.page inner outer).layers.take (inner.length + 1 + (k + 1))) =
      defSum ((z.1.page inner outer).layers.take (inner.length + 1 + k)) + outer[k].defLevels := by
    intro z _
    have hl := layer_outer inner outer z.1 k hk
    rw [← Nat.add_assoc, defSum_take_succ _ _ (lt_of_get _ _ _ hl)]
    rw [List.getElem?_eq_some_iff] at hl
    obtain ⟨_, hl⟩ := hl
    rw [hl]
  unfold unravelValidity
  rw [hflag]
  simp only [List.all_map]
  rcases hitem with h1 | h1
  · have hf : (zs.all (id ∘ fun _ => isAllValid outer[k])) = false := by
      cases zs with
      | nil => exact absurd rfl hne
      | cons z zs => simp [h1, isAllValid]
    rw [hf]
    simp only [Bool.false_eq_true, if_false]
    suffices hs : ∀ (ys : List (Part V × Unraveler)) (bits : List Bool), (∀ z ∈ ys, z ∈ zs) →
        ∃ ys' : List (Part V × Unraveler), ys'.map (·.1) = ys.map (·.1) ∧ (∀ z ∈ ys', After inner outer (k + 1) z.1 z.2) ∧
          validityLoop (ys.map (·.2)) bits = some (ys'.map (·.2), bits ++ List.replicate (ys.flatMap fun z => z.1.rows).length true) by
      obtain ⟨zs', e1, e2, e3⟩ := hs zs [] (fun z hz => hz)
      exact ⟨zs', _, e1, e2, by rw [e3]; rfl, Or.inr rfl⟩
    intro ys
    induction ys with
    | nil => intro bits _; exact ⟨[], rfl, by simp, by simp [validityLoop]⟩
    | cons z ys ih =>
      intro bits hmem
      have hz := hmem z (by simp)
      have h := ha z hz
      have hpz := hp z hz
      have hw : z.1.w = true := hpz.ok.outerDefs (by rw [← h1]; exact List.getElem_mem hk)
      have hdefs := h.defs
      rw [hw] at hdefs
      simp only [if_true] at hdefs
      have hfo := firsts_ok inner outer z.1 hpz
      have hsv : seenValid z.2.toRep z.2.repCmp z.2.defCmp (firsts (z.1.nl inner) (z.1.el inner) z.1.lrows) =
          some (List.replicate z.1.rows.length true) := by
        rw [h.toRep, h.repCmp, h.cmp, seenValid_all _ _ _ _ (fun d hd => (hfo d hd).1)
          (fun d hd => Nat.le_trans (hfo d hd).2 (cmp_list inner outer z.1 k)), firsts_length, lrows_length]
      obtain ⟨ys', e1, e2, e3⟩ := ih (bits ++ List.replicate z.1.rows.length true) (fun x hx => hmem x (by simp [hx]))
      refine ⟨(z.1, { z.2 with cur := z.2.cur + 1, defCmp := z.2.defCmp + 1 }) :: ys', by simp [e1], ?_, ?_⟩
      · intro x hx
        simp only [List.mem_cons] at hx
        rcases hx with hx | hx
        · subst hx
          refine ⟨h.layers, h.toRep, ?_, h.repCmp, ?_, h.defs⟩
          · simp only; rw [hcmp z hz, h.cmp, h1]; rfl
          · simp only; rw [h.cur]; omega
        · exact e2 x hx
      · simp only [List.map_cons, validityLoop, Unraveler.validity, hdefs]
        rw [hsv]
        simp only [Option.map_some]
        rw [e3]
        simp only [Option.map_some, List.flatMap_cons, List.length_append, ← List.replicate_append_replicate, List.append_assoc]
  · have hf : (zs.all (id ∘ fun _ => isAllValid outer[k])) = true := by simp [h1, isAllValid]
    rw [hf]
    simp only [if_true]
    refine ⟨zs.map fun z => (z.1, z.2.skip), none, by simp [List.map_map], ?_, by simp [List.map_map], Or.inl rfl⟩
    intro x hx
    obtain ⟨z, hz, rfl⟩ := List.mem_map.mp hx
    have h := ha z hz
    refine ⟨h.layers, h.toRep, ?_, h.repCmp, ?_, h.defs⟩
    · simp only [Unraveler.skip]; rw [hcmp z hz, h.cmp, h1]; rfl
    · simp only [Unraveler.skip]; rw [h.cur]; omega

/-! ### A column of lists -/

theorem rowsWith_sums {A : Type} : ∀ (rows : List (Option (List A))) (pre : List A),
    rowsWith (pre ++ flat rows) (pre.length :: sums rows pre.length) (rows.map Option.isSome) = rows
  | [], pre => by simp [rowsWith, sums]
  | r :: rs, pre => by
    have ih := rowsWith_sums rs (pre ++ rowVals r)
    rw [List.length_append] at ih
    have hf : flat (r :: rs) = rowVals r ++ flat rs := rfl
    rw [hf, ← List.append_assoc]
    simp only [sums, List.map_cons, rowsWith]
    rw [ih]
    cases r with
    | none => simp
    | some l => simp [rowVals, List.drop_append]

theorem getLastD_sums {A : Type} (rows : List (Option (List A))) : (0 :: sums rows 0).getLastD 0 = (flat rows).length := by
  rw [sums_last]; simp

theorem isAllValid_list (n e : Bool) : isAllValid (listLayer n e) = !n := by cases n <;> cases e <;> rfl

/-- Reading lists and what is in them. -/
theorem decode_list {V : Type} (inner outer : List Layer) (q : Nat) (hq : inner.length = q + 1) (parts : List (Part V)) (hne : parts ≠ [])
    (hp : ∀ P ∈ parts, PartOk inner outer P) :
    ∃ (zs : List (Part V × Unraveler)) (arr : Arr V),
      decode (.list :: List.replicate q .struct) (parts.map fun P => Unraveler.new (P.page inner outer))
        ((flat (parts.flatMap Part.rows)).map (·.2)) = some (zs.map (·.2), arr) ∧
      zs.map (·.1) = parts ∧ (∀ z ∈ zs, After inner outer 0 z.1 z.2) ∧
      arr.cells = (parts.flatMap Part.rows).map (rowOf inner) ∧ arr.len = (parts.flatMap Part.rows).length ∧
      arr.Ok (.list :: List.replicate q .struct) := by
  have hfl : (parts.map fun P => (P.page inner outer, (flat P.rows).map (·.1))).flatMap (·.2) = (flat (parts.flatMap Part.rows)).map (·.1) := by
    clear hne hp
    induction parts with
    | nil => rfl
    | cons P parts ih =>
      simp only [flat] at ih
      simp [flat, ih]
  have hi : ∀ l ∈ inner, isItem l := by
    cases parts with
    | nil => exact absurd rfl hne
    | cons P parts => exact (hp P (by simp)).ok.innerItems
  obtain ⟨c, hc1, hc2, hc3, hc4⟩ := decode_inner (V := V) inner hi (parts.map fun P => (P.page inner outer, (flat P.rows).map (·.1)))
    (by simpa using hne) (by
      intro x hx
      obtain ⟨P, hP, rfl⟩ := List.mem_map.mp hx
      exact part_in inner outer P (hp P hP)) ((flat (parts.flatMap Part.rows)).map (·.2)) (by rw [hfl]; simp) q (by omega)
  rw [← hq, List.take_length, hfl] at hc2
  rw [List.map_map, List.map_map, ← hq] at hc1
  have hcells : c.cells = (flat (parts.flatMap Part.rows)).map (levelCell inner) := by
    rw [hc2, zip_cells]
    congr 1
    have hz : ∀ xs : List (Nat × V), (xs.map (·.1)).zip (xs.map (·.2)) = xs := by
      intro xs
      induction xs with
      | nil => rfl
      | cons x xs ih => simp [ih]
    exact hz _
  have hflag : (parts.map fun P => advance inner.length (P.page inner outer)).mapM Unraveler.allValid =
      some (parts.map fun P => !P.nulls) := by
    rw [mapM_some_iff, List.map_map, List.map_map]
    apply List.map_congr_left
    intro P _
    simp only [Function.comp, Unraveler.allValid, advance]
    rw [layer_list]
    simp [isAllValid_list]
  obtain ⟨zs, hz1, hz2, hz3⟩ := offsetsFrom_rows inner outer parts [] [] (if (parts.map fun P => !P.nulls).all id then none else some [])
    hp (by simp [startsFrom]) (by simp [flat]) (Or.inl hne)
  rw [List.nil_append] at hz3
  generalize hR : parts.flatMap Part.rows = R at *
  have hbits : ∃ bits, ((if (parts.map fun P => !P.nulls).all id then none else some ([] : List Bool)).map (· ++ R.map Option.isSome)) = bits ∧
      BitsOk bits R.length ∧ bitsOr bits R.length = R.map Option.isSome := by
    refine ⟨_, rfl, ?_⟩
    split
    · rename_i h0
      refine ⟨by intro b hb; simp at hb, ?_⟩
      simp only [Option.map_none, bitsOr, Option.getD_none]
      symm
      rw [List.eq_replicate_iff]
      refine ⟨by simp, ?_⟩
      intro b hb
      obtain ⟨r, hr, rfl⟩ := List.mem_map.mp hb
      rw [← hR] at hr
      obtain ⟨P, hP, hr⟩ := List.mem_flatMap.mp hr
      refine (hp P hP).ok.nulls ?_ r hr
      rw [List.all_map, List.all_eq_true] at h0
      have := h0 P hP
      simpa using this
    · refine ⟨by intro b hb; simp at hb; subst hb; simp, ?_⟩
      simp [bitsOr]
  obtain ⟨bits, hb1, hb2, hb3⟩ := hbits
  rw [hb1] at hz3
  have hlen : c.len = (flat R).length := by rw [hc3, List.length_map]
  have hsl : (0 :: sums R 0).length - 1 = R.length := by simp [sums_length]
  refine ⟨zs, .list (0 :: sums R 0) c bits, ?_, hz1, hz2, ?_, ?_, ?_⟩
  · rw [decode]
    rw [show (parts.map fun P => Unraveler.new (P.page inner outer)) =
      parts.map ((fun p => Unraveler.new p.1) ∘ fun P => (P.page inner outer, (flat P.rows).map (·.1))) from rfl, hc1]
    simp only
    rw [show (parts.map ((fun p => advance inner.length p.1) ∘ fun P => (P.page inner outer, (flat P.rows).map (·.1)))) =
      parts.map fun P => advance inner.length (P.page inner outer) from rfl]
    unfold unravelOffsets
    rw [hflag]
    simp only
    rw [hz3]
    simp only
    rw [if_pos]
    refine ⟨by simp, by rw [getLastD_sums, hlen]; exact Nat.le_refl _, ?_⟩
    rw [hsl]
    cases bits with
    | none => rfl
    | some b => simp [hb2 b rfl]
  · rw [list_cells _ _ _ (by rw [hsl]; exact hb2), hsl, hb3, hcells]
    have := rowsWith_sums (R.map (Option.map (List.map (levelCell inner)))) []
    rw [List.nil_append, flat_map, sums_map] at this
    have hsm : (R.map (Option.map (List.map (levelCell inner)))).map Option.isSome = R.map Option.isSome := by
      rw [List.map_map]
      apply List.map_congr_left
      intro r _
      simp
    rw [hsm] at this
    simp only [List.length_nil] at this
    rw [this, List.map_map]
    rfl
  · simp [Arr.len, sums_length]
  · refine ⟨hc4, by rw [hsl]; exact hb2, by simp, ?_, by rw [getLastD_sums, hlen]; exact Nat.le_refl _⟩
    have : ∀ (rows : List (Option (List (Nat × V)))) (k : Nat), Rising (k :: sums rows k) := by
      intro rows
      induction rows with
      | nil => intro k; simp [sums, Rising]
      | cons r rs ih => intro k; exact ⟨by omega, ih _⟩
    exact this R 0

/-- Reading structs, lists in them and what is in the lists. -/
theorem decode_all {V : Type} (inner outer : List Layer) (q : Nat) (hq : inner.length = q + 1) (parts : List (Part V)) (hne : parts ≠ [])
    (hp : ∀ P ∈ parts, PartOk inner outer P) : ∀ k, k ≤ outer.length →
    ∃ (zs : List (Part V × Unraveler)) (arr : Arr V),
      decode (List.replicate k .struct ++ .list :: List.replicate q .struct) (parts.map fun P => Unraveler.new (P.page inner outer))
        ((flat (parts.flatMap Part.rows)).map (·.2)) = some (zs.map (·.2), arr) ∧
      zs.map (·.1) = parts ∧ (∀ z ∈ zs, After inner outer k z.1 z.2) ∧
      arr.cells = (parts.flatMap Part.rows).map (fun r => wrap k (rowOf inner r)) ∧ arr.len = (parts.flatMap Part.rows).length ∧
      arr.Ok (List.replicate k .struct ++ .list :: List.replicate q .struct) := by
  intro k
  induction k with
  | zero => intro _; exact decode_list inner outer q hq parts hne hp
  | succ k ih =>
    intro hk
    obtain ⟨zs, arr, h1, h2, h3, h4, h5, h6⟩ := ih (by omega)
    have hzp : ∀ z ∈ zs, PartOk inner outer z.1 := by
      intro z hz; apply hp; rw [← h2]; exact List.mem_map_of_mem hz
    obtain ⟨zs', bits, e1, e2, e3, e4⟩ := unravelValidity_outer inner outer k (by omega) zs
      (by intro h; rw [h] at h2; simp at h2; exact hne h2) hzp h3
    have hrl : (zs.flatMap fun z => z.1.rows) = parts.flatMap Part.rows := by rw [← h2, List.flatMap_map]
    rw [hrl, ← h5] at e4
    refine ⟨zs', .struct arr bits, ?_, by rw [e1, h2], e2, ?_, h5, h6, ?_⟩
    · rw [List.replicate_succ, List.cons_append, decode, h1]
      simp only
      rw [e3]
      simp only
      rw [if_pos]
      rcases e4 with e4 | e4 <;> rw [e4] <;> simp
    · have hcl : arr.cells.length = arr.len := by rw [h4, h5, List.length_map]
      rw [Arr.cells]
      rcases e4 with e4 | e4
      · rw [e4, mask, h4, List.map_map]
        rfl
      · rw [e4, mask, zipWith_all _ _ (by rw [List.length_replicate, hcl]) (by simp), h4, List.map_map]
        rfl
    · rcases e4 with e4 | e4
      · rw [e4]; intro b hb; simp at hb
      · rw [e4]; intro b hb; simp at hb; subst hb; simp

end Verif.RepDef
