import Verif.RepDef.Column
import Verif.RepDef.LemmasPages
import Verif.Mini.LemmasPage
/-!
# Lemmas on columns in mini-block pages
-/
namespace Verif.RepDef
open Verif.Mini

theorem selected_map {A B : Type} (f : A → B) (l : List A) (ranges : List (Nat × Nat)) :
    selected (l.map f) ranges = (selected l ranges).map f := by
  unfold selected
  rw [List.map_flatMap]
  congr 1
  funext r
  rw [List.map_take, List.map_drop]

theorem inBatches_map {A B : Type} (f : A → B) : ∀ (batches : List Nat) (l : List A),
    inBatches batches (l.map f) = (inBatches batches l).map (List.map f)
  | [], _ => rfl
  | n :: rest, l => by
    rw [inBatches, inBatches, List.map_cons, ← List.map_drop, inBatches_map f rest, List.map_take]

theorem mem_inBatches {A : Type} : ∀ (batches : List Nat) (l b : List A), b ∈ inBatches batches l → ∀ x ∈ b, x ∈ l
  | [], _, _, h => by simp [inBatches] at h
  | n :: rest, l, b, h => by
    intro x hx
    rw [inBatches] at h
    rcases List.mem_cons.mp h with e | e
    · subst e; exact List.mem_of_mem_take hx
    · exact List.mem_of_mem_drop (mem_inBatches rest _ b e x hx)

theorem mem_selected {A : Type} (l : List A) (ranges : List (Nat × Nat)) (x : A) (h : x ∈ selected l ranges) : x ∈ l := by
  obtain ⟨r, _, hr⟩ := List.mem_flatMap.mp h
  exact List.mem_of_mem_drop (List.mem_of_mem_take hr)

theorem writePage_layers {V : Type} (codec : Codec V) (rd : RepDefs) (vals : List V) (p : Page) (h : writePage codec rd vals = some p) :
    p.layers = rd.layers := by
  unfold writePage at h
  simp only at h
  split at h
  · simp at h
  · split at h
    · simp at h
    · split at h
      · simp at h
      · split at h
        · simp at h
        · simp only [Option.some.injEq] at h
          rw [← h]

theorem mapM_exists {A B : Type} (f : A → Option B) (R : A → B → Prop) : ∀ (l : List A), (∀ a ∈ l, ∃ b, f a = some b ∧ R a b) →
    ∃ bs, l.mapM f = some bs ∧ bs.length = l.length ∧ ∀ x ∈ l.zip bs, R x.1 x.2
  | [], _ => ⟨[], rfl, rfl, by simp⟩
  | a :: l, h => by
    obtain ⟨b, h1, h2⟩ := h a (by simp)
    obtain ⟨bs, i1, i2, i3⟩ := mapM_exists f R l (fun x hx => h x (by simp [hx]))
    refine ⟨b :: bs, by rw [List.mapM_cons, h1, i1]; rfl, by simp [i2], ?_⟩
    intro x hx
    rw [List.zip_cons_cons] at hx
    rcases List.mem_cons.mp hx with e | e
    · subst e; exact h2
    · exact i3 x e

theorem map_of_zip {A B C : Type} (f : A → C) (g : B → C) : ∀ (l : List A) (bs : List B), bs.length = l.length →
    (∀ x ∈ l.zip bs, g x.2 = f x.1) → bs.map g = l.map f
  | [], [], _, _ => rfl
  | [], _ :: _, h, _ => by simp at h
  | _ :: _, [], h, _ => by simp at h
  | a :: l, b :: bs, h, hx => by
    rw [List.map_cons, List.map_cons, hx (a, b) (by simp), map_of_zip f g l bs (by simpa using h) (fun x hm => hx x (by simp [hm]))]

theorem defSum_no_null (ls : List Layer) (hi : ∀ l ∈ ls, isItem l) (h : Layer.nullableItem ∉ ls) : defSum ls = 0 := by
  induction ls with
  | nil => rfl
  | cons l ls ih =>
    have h1 := ih (fun x hx => hi x (by simp [hx])) (fun hm => h (by simp [hm]))
    rcases hi l (by simp) with e | e
    · subst e; exact absurd (by simp) h
    · subst e; simpa [defSum, Layer.defLevels] using h1

theorem defSum_le_length (ls : List Layer) (hi : ∀ l ∈ ls, isItem l) : defSum ls ≤ ls.length := by
  induction ls with
  | nil => simp [defSum]
  | cons l ls ih =>
    have h1 := ih (fun x hx => hi x (by simp [hx]))
    have h2 : defSum (l :: ls) = l.defLevels + defSum ls := by simp [defSum]
    have h3 : l.defLevels ≤ 1 := by rcases hi l (by simp) with e | e <;> subst e <;> decide
    rw [h2, List.length_cons]
    omega

theorem listDepth_items (ls : List Layer) (hi : ∀ l ∈ ls, isItem l) : listDepth ls = 0 := by
  unfold listDepth
  rw [List.countP_eq_zero]
  intro l hl
  rcases hi l hl with e | e <;> subst e <;> simp [Layer.isList]

/-! ### Columns without lists -/

def itemSlot {V : Type} (e : Nat × V) : List (Slot V) := [⟨0, e.1, some e.2⟩]

def FlatPart.rows {V : Type} (inner : List Layer) (P : FlatPart V) : Rows V := ⟨inner, P.w, P.items.map itemSlot⟩

theorem itemSlots_flatten {V : Type} (items : List (Nat × V)) :
    (items.map itemSlot).flatten.map Slot.dfn = items.map (·.1) ∧ valsOf (items.map itemSlot).flatten = items.map (·.2) := by
  induction items with
  | nil => exact ⟨rfl, rfl⟩
  | cons e items ih =>
    unfold valsOf at ih ⊢
    simp [itemSlot] at ih ⊢
    exact ih

theorem flat_rowsOk {V : Type} (inner : List Layer) (P : FlatPart V) (h : FlatOk inner P) (hne : P.items ≠ []) (hlen : inner.length < 65536)
    (hrows : P.items.length < 2 ^ 64) : RowsOk (P.rows inner) := by
  refine ⟨?_, by simpa [FlatPart.rows] using hne, by simpa [FlatPart.rows] using hrows⟩
  intro row hrow
  obtain ⟨e, he, rfl⟩ := List.mem_map.mp hrow
  have hd := listDepth_items inner h.innerItems
  refine ⟨by simp [FlatPart.rows, hd], by simp, ?_⟩
  intro t ht
  simp only [List.mem_singleton] at ht
  subst ht
  have hl := h.levels e he
  have hs := defSum_le_length inner h.innerItems
  refine ⟨by simp [FlatPart.rows, hd], ?_, by simp, by simp only; omega⟩
  intro hw
  simp only [FlatPart.rows] at hw
  have : defSum inner = 0 := defSum_no_null inner h.innerItems (fun hm => by have := h.innerDefs hm; rw [hw] at this; exact absurd this (by simp))
  simp only
  omega

theorem flat_repDefs {V : Type} (inner : List Layer) (P : FlatPart V) (h : FlatOk inner P) : (P.rows inner).repDefs = P.page inner := by
  have hd := listDepth_items inner h.innerItems
  simp only [Rows.repDefs, repsOf, defsOf, FlatPart.rows, hd, if_true, FlatPart.page]
  rw [(itemSlots_flatten P.items).1]
  rfl

/-- A batch of rows of a column without lists is read as its cells. -/
theorem flat_batch {V : Type} (inner : List Layer) (q : Nat) (hq : inner.length = q + 1) (P : FlatPart V) (h : FlatOk inner P)
    (batch : List (Nat × V)) (hb : ∀ e ∈ batch, e ∈ P.items) :
    ∃ arr, decodePages (List.replicate q .struct) [(⟨(expected (P.rows inner) (batch.map itemSlot)).rep,
        (expected (P.rows inner) (batch.map itemSlot)).defs, inner⟩, (expected (P.rows inner) (batch.map itemSlot)).data)] = some arr ∧
      arr.cells = batch.map (levelCell inner) := by
  have hd := listDepth_items inner h.innerItems
  obtain ⟨us, arr, h1, h2, _⟩ := decode_flat inner q hq [⟨P.w, batch⟩] (by simp) (by
    intro x hx
    rw [List.mem_singleton] at hx
    subst hx
    exact ⟨h.innerItems, fun e he => h.levels e (hb e he), h.innerDefs⟩)
  refine ⟨arr, ?_, by simpa using h2⟩
  unfold decodePages
  simp only [List.map_cons, List.map_nil, List.flatMap_cons, List.flatMap_nil, List.append_nil] at h1 ⊢
  simp only [expected, repsOf, defsOf, FlatPart.rows, hd, if_true]
  rw [(itemSlots_flatten batch).1, (itemSlots_flatten batch).2]
  simp only [FlatPart.page] at h1
  exact congrArg (Option.map (·.2)) h1

/-! ### Columns of lists -/

def listSlots {V : Type} (nl el : Nat) : Option (List (Nat × V)) → List (Slot V)
  | none => [⟨1, nl, none⟩]
  | some [] => [⟨1, el, none⟩]
  | some (e :: xs) => ⟨1, e.1, some e.2⟩ :: xs.map fun x => ⟨0, x.1, some x.2⟩

def Part.slotRows {V : Type} (inner outer : List Layer) (P : Part V) : Rows V :=
  ⟨inner ++ listLayer P.nulls P.empties :: outer, P.w, P.rows.map (listSlots (P.nl inner) (P.el inner))⟩

theorem listSlots_flatten {V : Type} (nl el : Nat) : ∀ rows : List (Option (List (Nat × V))),
    (rows.map (listSlots nl el)).flatten.map Slot.rep = repOut rows ∧
    (rows.map (listSlots nl el)).flatten.map Slot.dfn = defOut nl el (rows.map (Option.map (List.map (·.1)))) ∧
    valsOf (rows.map (listSlots nl el)).flatten = (flat rows).map (·.2)
  | [] => ⟨rfl, rfl, rfl⟩
  | none :: rs => by
    obtain ⟨h1, h2, h3⟩ := listSlots_flatten nl el rs
    unfold valsOf at h3 ⊢
    refine ⟨?_, ?_, ?_⟩
    · simp only [List.map_cons, listSlots, List.flatten_cons, List.map_append, h1]; rfl
    · simp only [List.map_cons, listSlots, List.flatten_cons, List.map_append, h2, Option.map_none, defOut]; rfl
    · simp only [List.map_cons, listSlots, List.flatten_cons, List.filterMap_append, h3]; rfl
  | some [] :: rs => by
    obtain ⟨h1, h2, h3⟩ := listSlots_flatten nl el rs
    unfold valsOf at h3 ⊢
    refine ⟨?_, ?_, ?_⟩
    · simp only [List.map_cons, listSlots, List.flatten_cons, List.map_append, h1]; rfl
    · simp only [List.map_cons, listSlots, List.flatten_cons, List.map_append, h2, Option.map_some, List.map_nil, defOut]; rfl
    · simp only [List.map_cons, listSlots, List.flatten_cons, List.filterMap_append, h3]; rfl
  | some (e :: xs) :: rs => by
    obtain ⟨h1, h2, h3⟩ := listSlots_flatten nl el rs
    unfold valsOf at h3 ⊢
    refine ⟨?_, ?_, ?_⟩
    · simp only [List.map_cons, listSlots, List.flatten_cons, List.map_append, h1, repOut, List.map_map, List.cons_append]
      congr 2
      induction xs with
      | nil => rfl
      | cons x xs ih => simp only [List.map_cons, List.length_cons, List.replicate_succ, ih]; rfl
    · simp only [List.map_cons, listSlots, List.flatten_cons, List.map_append, h2, Option.map_some, defOut, List.map_map, List.cons_append]
      rfl
    · have hx : (xs.map fun x => (⟨0, x.1, some x.2⟩ : Slot V)).filterMap Slot.val = xs.map (·.2) := by
        induction xs with
        | nil => rfl
        | cons x xs ih => simp only [List.map_cons, List.filterMap_cons, ih]
      simp only [List.map_cons, listSlots, List.flatten_cons, List.filterMap_append, h3, List.filterMap_cons, hx, flat_some, List.map_append,
        List.cons_append]

theorem listDepth_list (inner outer : List Layer) (n e : Bool) (hi : ∀ l ∈ inner, isItem l) (ho : ∀ l ∈ outer, isItem l) :
    listDepth (inner ++ listLayer n e :: outer) = 1 := by
  have h1 := listDepth_items inner hi
  have h2 := listDepth_items outer ho
  unfold listDepth at h1 h2 ⊢
  rw [List.countP_append, List.countP_cons, h1, h2]
  cases n <;> cases e <;> rfl

theorem innerLevels_list (inner outer : List Layer) (n e : Bool) (hi : ∀ l ∈ inner, isItem l) :
    innerLevels (inner ++ listLayer n e :: outer) = defSum inner := by
  induction inner with
  | nil => cases n <;> cases e <;> rfl
  | cons l inner ih =>
    have h1 := ih (fun x hx => hi x (by simp [hx]))
    have h2 : defSum (l :: inner) = l.defLevels + defSum inner := by simp [defSum]
    have h3 : l.isList = false := by rcases hi l (by simp) with e | e <;> subst e <;> rfl
    simp only [List.cons_append, innerLevels, h3, h1, h2]
    rfl

theorem specials_none {A : Type} : ∀ (rows : List (Option (List A))) (i : Nat), specialsOf rows i = [] ↔
    ∀ r ∈ rows, ∃ x xs, r = some (x :: xs)
  | [], i => by simp [specialsOf]
  | none :: rs, i => by simp [specialsOf]
  | some [] :: rs, i => by simp [specialsOf]
  | some (x :: xs) :: rs, i => by
    rw [specialsOf, specials_none rs (i + 1)]
    simp

theorem list_rowsOk {V : Type} (inner outer : List Layer) (P : Part V) (h : PartOk inner outer P) (hne : P.rows ≠ [])
    (hlen : inner.length + 2 < 65536) (hrows : P.rows.length < 2 ^ 64) :
    RowsOk (P.slotRows inner outer) ∧ FlatLists (P.slotRows inner outer) := by
  have hd := listDepth_list inner outer P.nulls P.empties h.ok.innerItems h.ok.outerItems
  have hil := innerLevels_list inner outer P.nulls P.empties h.ok.innerItems
  have hsum := defSum_le_length inner h.ok.innerItems
  have hzero : P.w = false → defSum inner = 0 := by
    intro hw
    exact defSum_no_null inner h.ok.innerItems (fun hm => by have := h.ok.innerDefs hm; rw [hw] at this; exact absurd this (by simp))
  refine ⟨⟨?_, by simpa [Part.slotRows] using hne, by simpa [Part.slotRows] using hrows⟩, ?_⟩
  · intro row hrow
    obtain ⟨r, hr, rfl⟩ := List.mem_map.mp hrow
    cases r with
    | none =>
      have hn : P.nulls = true := by
        cases hn : P.nulls with
        | true => rfl
        | false => have := h.ok.nulls hn none hr; simp at this
      have hnl : P.nl inner = 1 + defSum inner := by
        unfold Part.nl; rw [hn]; cases P.empties <;> rfl
      have hw : P.w = true := by
        cases hw : P.w with
        | true => rfl
        | false =>
          obtain ⟨x, xs, hx⟩ := (specials_none _ _).mp (h.ok.specials hw) none hr
          simp at hx
      refine ⟨hd.symm, by simp, ?_⟩
      intro t ht
      simp only [List.mem_singleton] at ht
      subst ht
      refine ⟨?_, by simp [Part.slotRows, hw], by simp, ?_⟩
      · simp only [Part.slotRows, hd, hil, hnl]; simp
      · simp only [hnl]; omega
    | some l =>
      cases l with
      | nil =>
        have he : P.empties = true := by
          cases he : P.empties with
          | true => rfl
          | false =>
            have := h.ok.empties he
            rw [List.any_eq_false] at this
            have := this _ hr
            simp [isEmptyRow] at this
        have hel : P.el inner = 1 + defSum inner ∨ P.el inner = 1 + defSum inner + 1 := by
          unfold Part.el; rw [he]; cases P.nulls
          · exact Or.inl rfl
          · exact Or.inr rfl
        have hw : P.w = true := by
          cases hw : P.w with
          | true => rfl
          | false =>
            obtain ⟨x, xs, hx⟩ := (specials_none _ _).mp (h.ok.specials hw) _ hr
            simp at hx
        refine ⟨hd.symm, by simp, ?_⟩
        intro t ht
        simp only [List.mem_singleton] at ht
        subst ht
        refine ⟨?_, by simp [Part.slotRows, hw], by simp, ?_⟩
        · simp only [Part.slotRows, hd, hil]
          simp
          omega
        · simp only; omega
      | cons e xs =>
        have hmem : ∀ x ∈ e :: xs, x.1 ≤ defSum inner := by
          intro x hx
          exact h.ok.levels x (List.mem_flatMap.mpr ⟨_, hr, by simpa [rowVals] using hx⟩)
        refine ⟨hd.symm, ?_, ?_⟩
        · intro t ht
          obtain ⟨x, hx, rfl⟩ := List.mem_map.mp ht
          rw [show listDepth (P.slotRows inner outer).layers = 1 from hd]
          simp
        · intro t ht
          have hx : ∃ x ∈ e :: xs, t.dfn = x.1 ∧ t.val.isSome = true ∧ t.rep < 65536 := by
            rcases List.mem_cons.mp ht with ht | ht
            · subst ht; exact ⟨e, by simp, rfl, rfl, by simp⟩
            · obtain ⟨x, hx, rfl⟩ := List.mem_map.mp ht
              exact ⟨x, by simp [hx], rfl, rfl, by simp⟩
          obtain ⟨x, hx, h1, h2, h3⟩ := hx
          have hx := hmem x hx
          refine ⟨?_, ?_, h3, by omega⟩
          · rw [h2, h1]
            simp only [Part.slotRows, hd, hil]
            simp
            omega
          · intro hw
            have := hzero hw
            omega
  · intro row hrow s hs hv
    obtain ⟨r, hr, rfl⟩ := List.mem_map.mp hrow
    cases r with
    | none => simp only [listSlots, List.mem_singleton] at hs ⊢; rw [hs]
    | some l =>
      cases l with
      | nil => simp only [listSlots, List.mem_singleton] at hs ⊢; rw [hs]
      | cons e xs =>
        simp only [listSlots, List.mem_cons, List.mem_map] at hs
        rcases hs with hs | ⟨x, _, hs⟩ <;> subst hs <;> simp at hv

theorem list_repDefs {V : Type} (inner outer : List Layer) (P : Part V) (h : PartOk inner outer P) :
    (P.slotRows inner outer).repDefs = P.page inner outer := by
  have hd := listDepth_list inner outer P.nulls P.empties h.ok.innerItems h.ok.outerItems
  obtain ⟨h1, h2, _⟩ := listSlots_flatten (P.nl inner) (P.el inner) P.rows
  simp only [Rows.repDefs, repsOf, defsOf, Part.slotRows, hd, Part.page, listPage]
  rw [h1, h2]
  rfl

theorem part_sub {V : Type} (inner outer : List Layer) (P : Part V) (h : PartOk inner outer P) (batch : List (Option (List (Nat × V))))
    (hb : ∀ r ∈ batch, r ∈ P.rows) : PartOk inner outer ⟨P.nulls, P.empties, P.w, batch⟩ := by
  refine ⟨⟨h.ok.innerItems, h.ok.outerItems, ?_, fun hn r hr => h.ok.nulls hn r (hb r hr), ?_, h.ok.innerDefs, h.ok.outerDefs, ?_⟩, ?_⟩
  · intro e he
    obtain ⟨r, hr, hre⟩ := List.mem_flatMap.mp he
    exact h.ok.levels e (List.mem_flatMap.mpr ⟨r, hb r hr, hre⟩)
  · intro he
    have := h.ok.empties he
    rw [List.any_eq_false] at this ⊢
    intro r hr
    exact this r (hb r hr)
  · intro hw
    have := (specials_none _ _).mp (h.ok.specials hw)
    exact (specials_none _ _).mpr (fun r hr => this r (hb r hr))
  · rcases h.first with h1 | h1 | h1 | h1
    · exact Or.inl h1
    · exact Or.inr (Or.inl h1)
    · exact Or.inr (Or.inr (Or.inl h1))
    · exact Or.inr (Or.inr (Or.inr fun r hr => h1 r (hb r hr)))

/-- A batch of rows of a column of lists is read as its cells. -/
theorem list_batch {V : Type} (inner outer : List Layer) (p q : Nat) (hq : inner.length = q + 1) (ho : outer.length = p) (P : Part V)
    (h : PartOk inner outer P) (batch : List (Option (List (Nat × V)))) (hb : ∀ r ∈ batch, r ∈ P.rows) :
    ∃ arr, decodePages (List.replicate p .struct ++ .list :: List.replicate q .struct)
        [(⟨(expected (P.slotRows inner outer) (batch.map (listSlots (P.nl inner) (P.el inner)))).rep,
          (expected (P.slotRows inner outer) (batch.map (listSlots (P.nl inner) (P.el inner)))).defs, inner ++ listLayer P.nulls P.empties :: outer⟩,
          (expected (P.slotRows inner outer) (batch.map (listSlots (P.nl inner) (P.el inner)))).data)] = some arr ∧
      arr.cells = batch.map (fun r => wrap p (rowOf inner r)) := by
  have hd := listDepth_list inner outer P.nulls P.empties h.ok.innerItems h.ok.outerItems
  obtain ⟨zs, arr, d1, _, _, d4, _⟩ := decode_all inner outer q hq [⟨P.nulls, P.empties, P.w, batch⟩] (by simp) (by
    intro x hx
    rw [List.mem_singleton] at hx
    subst hx
    exact part_sub inner outer P h batch hb) p (by omega)
  refine ⟨arr, ?_, by simpa using d4⟩
  obtain ⟨h1, h2, h3⟩ := listSlots_flatten (P.nl inner) (P.el inner) batch
  unfold decodePages
  simp only [List.map_cons, List.map_nil, List.flatMap_cons, List.flatMap_nil, List.append_nil] at d1 ⊢
  simp only [expected, repsOf, defsOf, Part.slotRows, hd]
  rw [h1, h2, h3]
  simp only [Part.page, listPage] at d1
  simp only [Part.nl, Part.el]
  rw [if_neg (by omega)]
  exact congrArg (Option.map (·.2)) d1

/-- A list that is not longer than any chunk does not fill one. -/
theorem not_fills {V : Type} (chunks : List Chunk) (rows : List (List (Slot V))) (i k : Nat)
    (h : ∀ (hk : k < chunks.length), k + 1 < chunks.length → (valsOf (rows.getD i [])).length ≤ 2 ^ (chunks[k]).logNumValues) :
    ¬ Fills chunks rows i k := by
  intro ⟨h1, h2, h3⟩
  have hk : k < chunks.length := by omega
  have e1 : valuesBefore chunks (k + 1) = valuesBefore chunks k + 2 ^ (chunks[k]).logNumValues := by
    unfold valuesBefore
    rw [List.take_succ_eq_append_getElem hk, List.map_append, List.sum_append]
    simp only [List.map_cons, List.map_nil, List.sum_cons, List.sum_nil, Nat.add_zero]
  have e2 : valuesBeforeRow rows (i + 1) = valuesBeforeRow rows i + (valsOf (rows.getD i [])).length := by
    unfold valuesBeforeRow
    rw [List.take_succ]
    rw [List.flatten_append, valsOf_append, List.length_append]
    congr 2
    rw [List.getD_eq_getElem?_getD]
    cases rows[i]? with
    | none => rfl
    | some r => simp
  have := h hk h1
  omega

end Verif.RepDef
