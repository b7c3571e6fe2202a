import Verif.Zip.Column
import Verif.Zip.PropsZip
import Verif.RepDef.LemmasColumn
/-!
# Columns in full-zip pages: lemmas
-/
namespace Verif.Zip
open Verif.Mini Verif.RepDef

/-- The type of an array of structs around values. -/
abbrev structs (q : Nat) : List Kind := List.replicate q .struct

/-- The type of an array of structs around lists of structs around values. -/
abbrev lists (p q : Nat) : List Kind := List.replicate p .struct ++ .list :: List.replicate q .struct

theorem itemsPerRow_structs (q : Nat) : itemsPerRow (structs q) = 1 := by
  induction q with
  | zero => rfl
  | succ q ih => rw [structs, List.replicate_succ]; exact ih

theorem itemsPerRow_lists (p q : Nat) : itemsPerRow (lists p q) = 1 := by
  induction p with
  | zero => rw [lists, List.replicate_zero, List.nil_append]; exact itemsPerRow_structs q
  | succ p ih => rw [lists, List.replicate_succ, List.cons_append]; exact ih

theorem writeFixed_layers (rd : RepDefs) (vals : List (List Nat)) (k : Nat) (p : Page) (h : writeFixed rd vals k = some p) :
    p.layers = rd.layers := by
  unfold writeFixed at h
  split at h
  · cases h
  · simp only [Option.map_eq_some_iff] at h
    obtain ⟨_, _, rfl⟩ := h
    rfl

theorem writeVariable_layers (rd : RepDefs) (vals : List (List Nat)) (k : Nat) (p : Page) (h : writeVariable rd vals k = some p) :
    p.layers = rd.layers := by
  unfold writeVariable at h
  split at h
  · cases h
  · simp only [Option.map_eq_some_iff] at h
    obtain ⟨_, _, rfl⟩ := h
    rfl

theorem scaled_one (ranges : List (Nat × Nat)) : scaled 1 ranges = ranges := by
  unfold scaled
  simp

theorem map_mul_one (l : List Nat) : l.map (· * 1) = l := by simp

theorem defSum_eq (ls : List Layer) : defSum ls = allLevels ls := rfl

theorem itemLevels_items (ls : List Layer) (hi : ∀ l ∈ ls, isItem l) : itemLevels ls = defSum ls := by
  induction ls with
  | nil => rfl
  | cons l ls ih =>
    have h1 : l.isList = false := by rcases hi l (by simp) with e | e <;> subst e <;> rfl
    rw [itemLevels, ih (fun x hx => hi x (by simp [hx])), h1]
    simp [defSum]

theorem itemLevels_append (a b : List Layer) : itemLevels (a ++ b) = itemLevels a + itemLevels b := by
  induction a with
  | nil => simp [itemLevels]
  | cons l a ih => rw [List.cons_append, itemLevels, itemLevels, ih]; omega

theorem allLevels_append (a b : List Layer) : allLevels (a ++ b) = allLevels a + allLevels b := by
  simp [allLevels]

/-- A cell of level 0 is clean. -/
theorem cell_clean {V : Type} (x : Val V) (hx : x.clean = true) : ∀ (ls : List Layer) (cmp : Nat) (y : Val V), y.clean = true →
    (cell ls cmp 0 y).clean = true
  | [], _, _, h => h
  | l :: ls, cmp, y, h => by
    rw [cell]
    apply cell_clean x hx
    unfold cellStep
    simp [Val.clean, h]

theorem levelCell_clean {V : Type} (inner : List Layer) (e : Nat × V) (h : (levelCell inner e).clean = false) : e.1 ≠ 0 := by
  intro h0
  unfold levelCell at h
  rw [h0, cell_clean (.item e.2) rfl inner 0 (.item e.2) rfl] at h
  cases h

/-- What is in a cell does not matter if something around it is null. -/
theorem cell_null {V : Type} : ∀ (ls : List Layer) (_ : ∀ l ∈ ls, isItem l) (cmp d : Nat) (x y : Val V), cmp < d → d ≤ cmp + defSum ls →
    cell ls cmp d x = cell ls cmp d y
  | [], _, cmp, d, _, _, h1, h2 => by simp [defSum] at h2; omega
  | l :: ls, hi, cmp, d, x, y, h1, h2 => by
    rw [cell, cell]
    rcases hi l (by simp) with e | e
    · subst e
      have : ∀ z : Val V, cellStep Layer.nullableItem cmp d z = .null := by
        intro z
        unfold cellStep
        rw [if_neg (by simp), if_neg (by omega)]
      rw [this, this]
    · subst e
      have hd : defSum (Layer.allValidItem :: ls) = defSum ls := by simp [defSum, Layer.defLevels]
      rw [hd] at h2
      exact cell_null ls (fun z hz => hi z (by simp [hz])) _ d _ _ (by simpa [Layer.defLevels] using h1) (by simpa [Layer.defLevels] using h2)

/-- An item as it is read, if null strings are read as empty ones. -/
def blankItem (e : Nat × List Nat) : Nat × List Nat := (e.1, if e.1 = 0 then e.2 else [])

theorem levelCell_blank (inner : List Layer) (hi : ∀ l ∈ inner, isItem l) (e : Nat × List Nat) (h : e.1 ≤ defSum inner) :
    levelCell inner (blankItem e) = levelCell inner e := by
  unfold levelCell blankItem
  by_cases h0 : e.1 = 0
  · simp [h0]
  · simp only [h0, if_false]
    exact cell_null inner hi 0 e.1 _ _ (by omega) (by omega)

/-! ### Columns without lists -/

theorem flat_levelsOk {V : Type} (inner : List Layer) (P : FlatPart V) (h : FlatOk inner P) : LevelsOk (P.rows inner) := by
  intro row hrow s hs
  obtain ⟨e, he, rfl⟩ := List.mem_map.mp hrow
  have hs : s = ⟨0, e.1, some e.2⟩ := List.mem_singleton.mp hs
  subst hs
  exact h.levels e he

theorem flat_plain {V : Type} (inner : List Layer) (P : FlatPart V) (h : FlatOk inner P) (hl : inner.length < 256)
    (hu : P.w = true → ∃ e ∈ P.items, e.1 ≠ 0) : Plain (P.rows inner) := by
  refine ⟨?_, ?_, ?_, ?_⟩
  · rw [show listDepth (P.rows inner).layers = 0 from listDepth_items inner h.innerItems]; omega
  · have := defSum_le_length inner h.innerItems
    rw [defSum_eq] at this
    exact Nat.lt_of_le_of_lt this hl
  · intro hw
    obtain ⟨e, he, h0⟩ := hu hw
    exact ⟨itemSlot e, List.mem_map_of_mem he, ⟨0, e.1, some e.2⟩, List.mem_singleton.mpr rfl, h0⟩
  · intro row hrow s hs hv
    obtain ⟨e, he, rfl⟩ := List.mem_map.mp hrow
    have hs : s = ⟨0, e.1, some e.2⟩ := List.mem_singleton.mp hs
    subst hs
    cases hv

theorem itemSlots_length {V : Type} (items : List (Nat × V)) : (items.map itemSlot).flatten.length = items.length := by
  induction items with
  | nil => rfl
  | cons e items ih => simp only [List.map_cons, List.flatten_cons, List.length_append, ih, List.length_cons]; simp [itemSlot]; omega

/-! ### Levels that are there but not looked at -/

/-- Unravelers that differ in repetition levels, and in definition levels if no layer has nulls. -/
structure Alike (u v : Unraveler) : Prop where
  toRep : v.toRep = u.toRep
  layers : v.layers = u.layers
  defCmp : v.defCmp = u.defCmp
  repCmp : v.repCmp = u.repCmp
  cur : v.cur = u.cur
  defs : v.defs = u.defs ∨ ∀ l ∈ u.layers, isAllValid l = true

theorem alike_validity (u v : Unraveler) (h : Alike u v) (us : List Unraveler) (bits : Option (List Bool))
    (hu : unravelValidity [u] = some (us, bits)) :
    ∃ u' v', us = [u'] ∧ unravelValidity [v] = some ([v'], bits) ∧ Alike u' v' := by
  unfold unravelValidity at hu ⊢
  simp only [List.mapM_cons, List.mapM_nil] at hu ⊢
  have hav : v.allValid = u.allValid := by unfold Unraveler.allValid; rw [h.layers, h.cur]
  rw [hav]
  cases ha : u.allValid with
  | none => rw [ha] at hu; simp at hu
  | some b =>
    rw [ha] at hu
    cases b with
    | true =>
      simp at hu ⊢
      obtain ⟨rfl, rfl⟩ := hu
      refine ⟨u.skip, rfl, v.skip, ⟨rfl, rfl⟩, h.toRep, h.layers, h.defCmp, h.repCmp, ?_, h.defs⟩
      show v.cur + 1 = u.cur + 1
      rw [h.cur]
    | false =>
      have hd : v.defs = u.defs := by
        rcases h.defs with hd | hd
        · exact hd
        · exfalso
          unfold Unraveler.allValid at ha
          rw [Option.map_eq_some_iff] at ha
          obtain ⟨l, hl, hl2⟩ := ha
          rw [hd l (List.mem_of_getElem? hl)] at hl2
          cases hl2
      simp at hu ⊢
      obtain ⟨us', bits', hu, rfl, rfl⟩ := hu
      simp only [validityLoop, Unraveler.validity] at hu ⊢
      rw [hd, h.toRep, h.repCmp, h.defCmp]
      cases hds : u.defs with
      | none => rw [hds] at hu; simp at hu
      | some ds =>
        rw [hds] at hu
        simp only at hu ⊢
        cases hs : seenValid u.toRep u.repCmp u.defCmp ds with
        | none => rw [hs] at hu; simp at hu
        | some out =>
          rw [hs] at hu
          simp at hu ⊢
          obtain ⟨rfl, rfl⟩ := hu
          refine ⟨_, rfl, _, ⟨rfl, rfl⟩, ?_⟩
          exact ⟨rfl, h.layers, rfl, rfl, by simp [h.cur], Or.inl rfl⟩

theorem alike_decode (q : Nat) (u v : Unraveler) (h : Alike u v) (vals : List (List Nat)) (us : List Unraveler) (arr : Arr (List Nat)) :
    decode (structs q) [u] vals = some (us, arr) → ∃ u' v', us = [u'] ∧ decode (structs q) [v] vals = some ([v'], arr) ∧ Alike u' v' := by
  induction q generalizing us arr with
  | zero =>
    intro hd
    simp only [structs, List.replicate_zero, decode] at hd ⊢
    cases hu : unravelValidity [u] with
    | none => rw [hu] at hd; simp at hd
    | some x =>
      obtain ⟨us', bits⟩ := x
      rw [hu] at hd
      obtain ⟨u', v', rfl, h2, h3⟩ := alike_validity u v h us' bits hu
      rw [h2]
      simp only at hd ⊢
      split at hd
      · rename_i hb
        simp only [Option.some.injEq, Prod.mk.injEq] at hd
        obtain ⟨rfl, rfl⟩ := hd
        exact ⟨u', v', rfl, by rw [if_pos hb], h3⟩
      · cases hd
  | succ q ih =>
    intro hd
    simp only [structs, List.replicate_succ, decode] at hd ⊢
    cases hi : decode (List.replicate q .struct) [u] vals with
    | none => rw [hi] at hd; simp at hd
    | some x =>
      obtain ⟨us1, c⟩ := x
      obtain ⟨u1, v1, rfl, i2, i3⟩ := ih us1 c hi
      rw [hi] at hd
      rw [show decode (List.replicate q .struct) [v] vals = _ from i2]
      simp only at hd ⊢
      cases hu : unravelValidity [u1] with
      | none => rw [hu] at hd; simp at hd
      | some x =>
        obtain ⟨us', bits⟩ := x
        rw [hu] at hd
        obtain ⟨u', v', rfl, h2, h3⟩ := alike_validity u1 v1 i3 us' bits hu
        rw [h2]
        simp only at hd ⊢
        split at hd
        · rename_i hb
          simp only [Option.some.injEq, Prod.mk.injEq] at hd
          obtain ⟨rfl, rfl⟩ := hd
          exact ⟨u', v', rfl, by rw [if_pos hb], h3⟩
        · cases hd

theorem decodePages_alike (q : Nat) (rd rd' : RepDefs) (vals : List (List Nat)) (arr : Arr (List Nat)) (hl : rd'.layers = rd.layers)
    (hd : rd'.defs = rd.defs ∨ ∀ l ∈ rd.layers, isAllValid l = true) (h : decodePages (structs q) [(rd, vals)] = some arr) :
    decodePages (structs q) [(rd', vals)] = some arr := by
  unfold decodePages at h ⊢
  simp only [List.map_cons, List.map_nil, List.flatMap_cons, List.flatMap_nil, List.append_nil, Option.map_eq_some_iff] at h ⊢
  obtain ⟨⟨us, a⟩, h, rfl⟩ := h
  obtain ⟨u', v', _, h2, _⟩ := alike_decode q (Unraveler.new rd) (Unraveler.new rd') (by
    refine ⟨?_, hl, rfl, rfl, rfl, hd⟩
    simp only [Unraveler.new, hl]) vals us a h
  exact ⟨_, h2, rfl⟩

/-! ### Columns of lists -/

theorem list_levelsOk {V : Type} (inner outer : List Layer) (P : Part V) (h : PartOk inner outer P) : LevelsOk (P.slotRows inner outer) := by
  have hall : allLevels (P.slotRows inner outer).layers = defSum inner + (listLayer P.nulls P.empties).defLevels + defSum outer := by
    show allLevels (inner ++ listLayer P.nulls P.empties :: outer) = _
    rw [show inner ++ listLayer P.nulls P.empties :: outer = inner ++ ([listLayer P.nulls P.empties] ++ outer) from by simp,
      allLevels_append, allLevels_append]
    simp [allLevels, defSum]; omega
  intro row hrow s hs
  rw [hall]
  obtain ⟨r, hr, rfl⟩ := List.mem_map.mp hrow
  cases r with
  | none =>
    have hn : P.nulls = true := by
      cases hn : P.nulls with
      | true => rfl
      | false => have := h.ok.nulls hn none hr; simp at this
    have hs : s = ⟨1, P.nl inner, none⟩ := List.mem_singleton.mp hs
    subst hs
    show P.nl inner ≤ _
    unfold Part.nl
    rw [hn]
    cases P.empties <;> simp [listLevels, listLayer, Layer.defLevels] <;> omega
  | some l =>
    cases l with
    | nil =>
      have hs : s = ⟨1, P.el inner, none⟩ := List.mem_singleton.mp hs
      subst hs
      show P.el inner ≤ _
      unfold Part.el
      cases P.nulls <;> cases P.empties <;> simp [listLevels, listLayer, Layer.defLevels] <;> omega
    | cons e xs =>
      have hmem : ∀ x ∈ e :: xs, x.1 ≤ defSum inner := by
        intro x hx
        exact h.ok.levels x (List.mem_flatMap.mpr ⟨_, hr, by simpa [rowVals] using hx⟩)
      have : ∃ x ∈ e :: xs, s.dfn = x.1 := by
        rcases List.mem_cons.mp hs with hs | hs
        · subst hs; exact ⟨e, by simp, rfl⟩
        · obtain ⟨x, hx, rfl⟩ := List.mem_map.mp hs
          exact ⟨x, by simp [hx], rfl⟩
      obtain ⟨x, hx, hd⟩ := this
      have := hmem x hx
      omega

/-- The levels of null and empty lists are above those of items. -/
theorem special_levels {V : Type} (inner outer : List Layer) (P : Part V) (h : PartOk inner outer P) :
    (none ∈ P.rows → defSum inner < P.nl inner) ∧ (some [] ∈ P.rows → defSum inner < P.el inner) := by
  constructor
  · intro hr
    have hn : P.nulls = true := by
      cases hn : P.nulls with
      | true => rfl
      | false => have := h.ok.nulls hn none hr; simp at this
    unfold Part.nl
    rw [hn]
    cases P.empties <;> simp only [listLevels] <;> omega
  · intro hr
    have he : P.empties = true := by
      cases he : P.empties with
      | true => rfl
      | false =>
        have := h.ok.empties he
        rw [List.any_eq_false] at this
        have := this _ hr
        simp [isEmptyRow] at this
    unfold Part.el
    rw [he]
    cases P.nulls <;> simp only [listLevels] <;> omega

theorem list_plain {V : Type} (inner outer : List Layer) (P : Part V) (h : PartOk inner outer P) (hl : inner.length + 2 < 256)
    (ho : defSum outer = 0) (hu : P.w = true → ∃ r ∈ P.rows, r = none ∨ r = some [] ∨ ∃ e ∈ rowVals r, e.1 ≠ 0) :
    Plain (P.slotRows inner outer) := by
  have hsp := special_levels inner outer P h
  have hlay : (P.slotRows inner outer).layers = inner ++ listLayer P.nulls P.empties :: outer := rfl
  refine ⟨?_, ?_, ?_, ?_⟩
  · rw [hlay, listDepth_list inner outer _ _ h.ok.innerItems h.ok.outerItems]; omega
  · rw [hlay, show inner ++ listLayer P.nulls P.empties :: outer = inner ++ ([listLayer P.nulls P.empties] ++ outer) from by simp,
      allLevels_append, allLevels_append, ← defSum_eq, ← defSum_eq outer, ho]
    have := defSum_le_length inner h.ok.innerItems
    have h2 : allLevels [listLayer P.nulls P.empties] ≤ 2 := by cases P.nulls <;> cases P.empties <;> decide
    omega
  · intro hw
    obtain ⟨r, hr, hcase⟩ := hu hw
    refine ⟨_, List.mem_map_of_mem hr, ?_⟩
    rcases hcase with rfl | rfl | ⟨e, he, h0⟩
    · exact ⟨⟨1, P.nl inner, none⟩, List.mem_singleton.mpr rfl, by have := hsp.1 hr; simp only; omega⟩
    · exact ⟨⟨1, P.el inner, none⟩, List.mem_singleton.mpr rfl, by have := hsp.2 hr; simp only; omega⟩
    · cases r with
      | none => simp [rowVals] at he
      | some l =>
        cases l with
        | nil => simp [rowVals] at he
        | cons y ys =>
          simp only [rowVals, Option.getD_some, List.mem_cons] at he
          rcases he with rfl | he
          · exact ⟨⟨1, e.1, some e.2⟩, by simp [listSlots], h0⟩
          · exact ⟨⟨0, e.1, some e.2⟩, by simp only [listSlots, List.mem_cons, List.mem_map]; exact Or.inr ⟨e, he, rfl⟩, h0⟩
  · intro row hrow s hs hv
    have hil : itemLevels (P.slotRows inner outer).layers = defSum inner := by
      rw [hlay, show inner ++ listLayer P.nulls P.empties :: outer = inner ++ ([listLayer P.nulls P.empties] ++ outer) from by simp,
        itemLevels_append, itemLevels_append, itemLevels_items inner h.ok.innerItems, itemLevels_items outer h.ok.outerItems, ho]
      have : itemLevels [listLayer P.nulls P.empties] = 0 := by cases P.nulls <;> cases P.empties <;> rfl
      omega
    rw [hil]
    obtain ⟨r, hr, rfl⟩ := List.mem_map.mp hrow
    cases r with
    | none =>
      have hs : s = ⟨1, P.nl inner, none⟩ := List.mem_singleton.mp hs
      subst hs
      exact hsp.1 hr
    | some l =>
      cases l with
      | nil =>
        have hs : s = ⟨1, P.el inner, none⟩ := List.mem_singleton.mp hs
        subst hs
        exact hsp.2 hr
      | cons e xs =>
        simp only [listSlots, List.mem_cons, List.mem_map] at hs
        rcases hs with hs | ⟨x, _, hs⟩ <;> subst hs <;> cases hv

/-! ### The values of a page are among the leaves of its arrays -/

theorem keep_sublist {A : Type} : ∀ (m : List Bool) (l : List A), (keep m l).Sublist l
  | [], l => by simp [keep]
  | _ :: _, [] => by simp [keep]
  | m :: ms, a :: as => by
    rw [keep]
    split
    · exact (keep_sublist ms as).cons_cons a
    · exact (keep_sublist ms as).cons a

theorem slice_leaves {V : Type} : ∀ (a : Arr V) (s n : Nat), (a.slice s n).leaves.Sublist a.leaves
  | .prim vals _, s, n => (List.take_sublist n _).trans (List.drop_sublist s vals)
  | .struct c _, s, n => slice_leaves c s n
  | .list _ _ _, _, _ => List.Sublist.refl _
  | .fsl d c _, s, n => slice_leaves c (s * d) (n * d)

theorem filter_leaves {V : Type} : ∀ (a : Arr V) (m : List Bool), (a.filter m).leaves.Sublist a.leaves
  | .prim vals _, m => keep_sublist m vals
  | .struct c _, m => filter_leaves c m
  | .list _ c _, _ => filter_leaves c _
  | .fsl _ c _, _ => filter_leaves c _

theorem listValues_leaves {V : Type} (offs : List Nat) (bits : Option (List Bool)) (c : Arr V) (g : Bool) :
    (listValues offs bits c g).leaves.Sublist c.leaves := by
  unfold listValues trimmed
  split
  · exact (slice_leaves _ _ _).trans (filter_leaves _ _)
  · exact slice_leaves _ _ _

theorem collect_leaves {V : Type} : ∀ (ks : List Kind) (a : Arr V) (b : Builder) (x : Builder × List V), collect ks a b = some x →
    x.2.Sublist a.leaves
  | [], .prim vals bits, b, x, h => by
    simp only [collect, Option.map_eq_some_iff] at h
    obtain ⟨_, _, rfl⟩ := h
    exact List.Sublist.refl _
  | .struct :: ks, .struct c bits, b, x, h => by
    simp only [collect] at h
    split at h
    · cases h
    · exact collect_leaves ks c _ x h
  | .list :: ks, .list offs c bits, b, x, h => by
    simp only [collect] at h
    split at h
    · cases h
    · exact (collect_leaves ks _ _ x h).trans (listValues_leaves _ _ _ _)
  | .fsl dim :: ks, .fsl _ c bits, b, x, h => by
    simp only [collect] at h
    split at h
    · cases h
    · exact collect_leaves ks c _ x h
  | [], .struct _ _, _, _, h => by simp [collect] at h
  | [], .list _ _ _, _, _, h => by simp [collect] at h
  | [], .fsl _ _ _, _, _, h => by simp [collect] at h
  | .struct :: _, .prim _ _, _, _, h => by simp [collect] at h
  | .struct :: _, .list _ _ _, _, _, h => by simp [collect] at h
  | .struct :: _, .fsl _ _ _, _, _, h => by simp [collect] at h
  | .list :: _, .prim _ _, _, _, h => by simp [collect] at h
  | .list :: _, .struct _ _, _, _, h => by simp [collect] at h
  | .list :: _, .fsl _ _ _, _, _, h => by simp [collect] at h
  | .fsl _ :: _, .prim _ _, _, _, h => by simp [collect] at h
  | .fsl _ :: _, .struct _ _, _, _, h => by simp [collect] at h
  | .fsl _ :: _, .list _ _ _, _, _, h => by simp [collect] at h

theorem mapM_collect_leaves {V : Type} (ks : List Kind) : ∀ (arrs : List (Arr V)) (rs : List (Builder × List V)),
    arrs.mapM (fun a => collect ks a Builder.empty) = some rs → (rs.flatMap (·.2)).Sublist (arrs.flatMap Arr.leaves)
  | [], rs, h => by simp at h; subst h; simp
  | a :: arrs, rs, h => by
    rw [List.mapM_cons] at h
    cases hc : collect ks a Builder.empty with
    | none => rw [hc] at h; cases h
    | some x =>
      cases hm : arrs.mapM (fun a => collect ks a Builder.empty) with
      | none => rw [hc, hm] at h; cases h
      | some rs' =>
        rw [hc, hm] at h
        cases h
        simp only [List.flatMap_cons]
        exact (collect_leaves ks a _ x hc).append (mapM_collect_leaves ks arrs rs' hm)

/-- The values of a page are among the leaves of the arrays, in their order. -/
theorem encode_leaves {V : Type} (ks : List Kind) (arrs : List (Arr V)) (rd : RepDefs) (vals : List V) (h : encode ks arrs = some (rd, vals)) :
    vals.Sublist (arrs.flatMap Arr.leaves) := by
  unfold encode at h
  cases hm : arrs.mapM (fun a => collect ks a Builder.empty) with
  | none => rw [hm] at h; cases h
  | some rs =>
    rw [hm] at h
    simp only [Option.map_eq_some_iff, Prod.mk.injEq] at h
    obtain ⟨_, _, _, rfl⟩ := h
    exact mapM_collect_leaves ks arrs rs hm

theorem flatten_length_le {A : Type} {a b : List (List A)} (h : a.Sublist b) : a.flatten.length ≤ b.flatten.length := by
  induction h with
  | slnil => simp
  | cons x _ ih => simp only [List.flatten_cons, List.length_append]; omega
  | cons_cons x _ ih => simp only [List.flatten_cons, List.length_append]; omega

/-! ### Cells and rows -/

/-- An array has as many cells as rows. -/
theorem len_cells {V : Type} : ∀ (ks : List Kind) (a : Arr V), a.Ok ks → a.cells.length = a.len
  | [], a, h => by
    cases a <;> simp only [Arr.Ok] at h
    rw [Arr.cells, mask_length _ _ (by rw [List.length_map]; exact h), List.length_map]
    rfl
  | .struct :: ks, a, h => by
    cases a <;> simp only [Arr.Ok] at h
    rename_i c bits
    have := len_cells ks c h.1
    rw [Arr.cells, mask_length _ _ (by rw [this]; exact h.2), this]
    rfl
  | .list :: ks, a, h => by
    cases a <;> simp only [Arr.Ok] at h
    rename_i offs c bits
    rw [Arr.cells, mask_length _ _ (by rw [List.length_map, slices_length]; exact h.2.1), List.length_map, slices_length]
    rfl
  | .fsl dim :: ks, a, h => by
    cases a <;> simp only [Arr.Ok] at h
    rename_i d c bits
    have hg : ∀ (n : Nat) (l : List (Val V)), (groups d n l).length = n := by
      intro n
      induction n with
      | zero => intro l; rfl
      | succ n ih => intro l; simp [groups, ih]
    rw [Arr.cells, mask_length _ _ (by rw [List.length_map, hg, h.2.2.1]; exact h.2.1), List.length_map, hg]
    rfl

theorem sum_lens {V : Type} (ks : List Kind) (arrs : List (Arr V)) (hok : ∀ a ∈ arrs, a.Ok ks) :
    (arrs.map Arr.len).sum = (arrs.flatMap Arr.cells).length := by
  rw [List.length_flatMap]
  exact (congrArg List.sum (List.map_congr_left fun a ha => len_cells ks a (hok a ha))).symm

theorem listSlots_length {V : Type} (nl el : Nat) (rows : List (Option (List (Nat × V)))) :
    (rows.map (listSlots nl el)).flatten.length ≤ (flat rows).length + rows.length := by
  induction rows with
  | nil => simp [flat]
  | cons r rows ih =>
    simp only [flat, List.map_cons, List.flatten_cons, List.length_append, List.flatMap_cons, List.length_cons] at ih ⊢
    have : (listSlots nl el r).length ≤ (rowVals r).length + 1 := by
      cases r with
      | none => simp [listSlots]
      | some l => cases l <;> simp [listSlots, rowVals]
    omega

/-! ### Blanked lists -/

def blankRow (r : Option (List (Nat × List Nat))) : Option (List (Nat × List Nat)) := r.map (List.map blankItem)

theorem listSlots_blank (nl el : Nat) (r : Option (List (Nat × List Nat))) :
    (listSlots nl el r).map blank = listSlots nl el (blankRow r) := by
  cases r with
  | none => rfl
  | some l =>
    cases l with
    | nil => rfl
    | cons e xs =>
      simp only [listSlots, blankRow, Option.map_some, List.map_cons, List.map_map]
      rfl

theorem blank_rows (nl el : Nat) (batch : List (Option (List (Nat × List Nat)))) :
    (batch.map (listSlots nl el)).flatten.map blank = ((batch.map blankRow).map (listSlots nl el)).flatten := by
  induction batch with
  | nil => rfl
  | cons r batch ih => simp only [List.map_cons, List.flatten_cons, List.map_append, ih, listSlots_blank]

theorem rowOf_blank (inner : List Layer) (hi : ∀ l ∈ inner, isItem l) (r : Option (List (Nat × List Nat)))
    (h : ∀ e ∈ rowVals r, e.1 ≤ defSum inner) : rowOf inner (blankRow r) = rowOf inner r := by
  cases r with
  | none => rfl
  | some l =>
    unfold rowOf blankRow
    simp only [Option.map_some, List.map_map]
    congr 2
    apply List.map_congr_left
    intro e he
    exact levelCell_blank inner hi e (h e he)

theorem part_blank (inner outer : List Layer) (P : Part (List Nat)) (h : PartOk inner outer P) :
    PartOk inner outer (⟨P.nulls, P.empties, P.w, P.rows.map blankRow⟩ : Part (List Nat)) := by
  refine ⟨⟨h.ok.innerItems, h.ok.outerItems, ?_, ?_, ?_, h.ok.innerDefs, h.ok.outerDefs, ?_⟩, ?_⟩
  · intro e he
    obtain ⟨r', hr', hre⟩ := List.mem_flatMap.mp he
    obtain ⟨r, hr, rfl⟩ := List.mem_map.mp hr'
    cases r with
    | none => simp [rowVals, blankRow] at hre
    | some l =>
      simp only [rowVals, blankRow, Option.map_some, Option.getD_some] at hre
      obtain ⟨x, hx, rfl⟩ := List.mem_map.mp hre
      exact h.ok.levels x (List.mem_flatMap.mpr ⟨_, hr, hx⟩)
  · intro hn r' hr'
    obtain ⟨r, hr, rfl⟩ := List.mem_map.mp hr'
    have := h.ok.nulls hn r hr
    cases r with
    | none => simp at this
    | some l => rfl
  · intro he
    have := h.ok.empties he
    rw [List.any_eq_false] at this ⊢
    intro r' hr'
    obtain ⟨r, hr, rfl⟩ := List.mem_map.mp hr'
    have := this r hr
    cases r with
    | none => simp [blankRow, isEmptyRow]
    | some l => cases l <;> simp_all [blankRow, isEmptyRow]
  · intro hw
    have := (specials_none _ _).mp (h.ok.specials hw)
    refine (specials_none _ _).mpr ?_
    intro r' hr'
    obtain ⟨r, hr, rfl⟩ := List.mem_map.mp hr'
    obtain ⟨x, xs, rfl⟩ := this r hr
    exact ⟨_, _, rfl⟩
  · rcases h.first with h1 | h1 | h1 | h1
    · exact Or.inl h1
    · exact Or.inr (Or.inl h1)
    · exact Or.inr (Or.inr (Or.inl h1))
    · refine Or.inr (Or.inr (Or.inr ?_))
      intro r' hr' e xs he
      obtain ⟨r, hr, rfl⟩ := List.mem_map.mp hr'
      cases r with
      | none => simp [blankRow] at he
      | some l =>
        cases l with
        | nil => simp [blankRow] at he
        | cons y ys =>
          simp only [blankRow, Option.map_some, List.map_cons, Option.some.injEq, List.cons.injEq] at he
          rw [← he.1]
          exact h1 _ hr y ys rfl

end Verif.Zip
