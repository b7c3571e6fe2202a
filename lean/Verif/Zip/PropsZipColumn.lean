import Verif.Zip.LemmasColumn
/-!
# C91: columns are read from full-zip pages as they were written
-/
namespace Verif.Zip
open Verif.Mini Verif.RepDef

/-- The arrays of a page have no validity bitmaps. -/
def Bare {V : Type} (arrs : List (Arr V)) : Prop := ∀ a ∈ arrs, ∀ b ∈ a.bitmaps, b = none

/-- The claim, for values of a fixed width: the arrays of a page (of which some value is not null, as other pages are not full-zip pages) can
be stored, and any ranges of rows, read in any batches, are arrays with the cells of these rows. -/
def C91_fixed_width_statement : Prop :=
  ∀ (bpv : Nat) (ks : List Kind) (arrs : List (Arr (List Nat))), 0 < bpv → PagesOk ks [arrs] →
    (∀ a ∈ arrs, ∀ v ∈ a.leaves, FixedVal bpv v) → (∃ a ∈ arrs, a.leaves ≠ []) →
    ∃ p, storeZip writeFixed ks arrs = some p ∧
      ∀ (ranges : List (Nat × Nat)) (batches : List Nat), RangesOk (arrs.flatMap Arr.cells).length 0 ranges →
        BatchesOk (selected (arrs.flatMap Arr.cells) ranges).length batches →
        ∃ out, loadFixed bpv ks p ranges batches = some out ∧
          out.map Arr.cells = inBatches batches (selected (arrs.flatMap Arr.cells) ranges)

/-- The claim for strings. -/
def C91_strings_statement : Prop :=
  ∀ (ks : List Kind) (arrs : List (Arr (List Nat))), PagesOk ks [arrs] → (∃ a ∈ arrs, a.leaves ≠ []) →
    (arrs.flatMap Arr.leaves).flatten.length < 2 ^ 31 →
    ∃ p, storeZip writeVariable ks arrs = some p ∧
      ∀ (ranges : List (Nat × Nat)) (batches : List Nat), RangesOk (arrs.flatMap Arr.cells).length 0 ranges →
        BatchesOk (selected (arrs.flatMap Arr.cells) ranges).length batches →
        ∃ out, loadStrings ks p ranges batches = some out ∧
          out.map Arr.cells = inBatches batches (selected (arrs.flatMap Arr.cells) ranges)

theorem assemble_exists {A : Type} (ks : List Kind) (layers : List Layer) (f : List A → Out (List Nat)) (g : A → Val (List Nat))
    (l : List (List A)) (h : ∀ b ∈ l, ∃ arr, decodePages ks [(⟨(f b).rep, (f b).defs, layers⟩, (f b).data)] = some arr ∧ arr.cells = b.map g) :
    ∃ out, assemble ks layers (l.map f) = some out ∧ out.map Arr.cells = l.map (List.map g) := by
  unfold assemble
  rw [List.mapM_map]
  obtain ⟨out, m1, m2, m3⟩ := mapM_exists
    (fun b : List A => decodePages ks [(⟨(f b).rep, (f b).defs, layers⟩, (f b).data)]) (fun b arr => arr.cells = b.map g) l h
  exact ⟨out, m1, map_of_zip _ _ _ _ m2 m3⟩

theorem selected_range_length {A : Type} (n : Nat) (l : List A) (ranges : List (Nat × Nat)) (h : n = l.length) :
    (selected (List.range n) ranges).length = (selected l ranges).length := by
  have h1 := selected_map (fun _ => ()) (List.range n) ranges
  have h2 := selected_map (fun _ => ()) l ranges
  have h3 : (List.range n).map (fun _ => ()) = l.map (fun _ => ()) := by
    rw [List.map_const', List.map_const', List.length_range, h]
  rw [h3, h2] at h1
  have h4 := congrArg List.length h1
  rw [List.length_map, List.length_map] at h4
  exact h4.symm

/-! ### Columns without lists -/

/-- What is written of arrays of values in structs, and what is known of it. -/
theorem flat_part (q : Nat) (hq : q + 1 < 256) (arrs : List (Arr (List Nat))) (hok : ∀ a ∈ arrs, a.Ok (structs q))
    (hcells : arrs.flatMap Arr.cells ≠ []) (hrows : (arrs.flatMap Arr.cells).length < 2 ^ 64)
    (hu : Bare arrs ∨ ∃ c ∈ arrs.flatMap Arr.cells, c.clean = false) :
    ∃ (inner : List Layer) (P : FlatPart (List Nat)), encode (structs q) arrs = some ((P.rows inner).repDefs, valsOf (P.rows inner).rows.flatten) ∧
      FlatOk inner P ∧ inner.length = q + 1 ∧ RowsOk (P.rows inner) ∧ LevelsOk (P.rows inner) ∧ Plain (P.rows inner) ∧
      arrs.flatMap Arr.cells = P.items.map (levelCell inner) ∧ valsOf (P.rows inner).rows.flatten = arrs.flatMap Arr.leaves ∧
      (P.rows inner).rows.length = (arrs.map Arr.len).sum ∧ (P.rows inner).rows.flatten.length = (arrs.flatMap Arr.cells).length := by
  obtain ⟨P, e1, e2, e3⟩ := encode_flat_part q arrs hok hcells
  have hne : arrs ≠ [] := by intro h; rw [h] at hcells; exact hcells rfl
  have hcl : ∀ a ∈ arrs, a.cells.length = a.len := fun a ha => cells_length q a (hok a ha)
  have hsum : (arrs.flatMap Arr.cells).length = (arrs.map Arr.len).sum := by
    rw [List.length_flatMap]; congr 1; exact List.map_congr_left hcl
  have henc := encode_flat q arrs hne hok (by rw [← hsum]; exact List.length_pos_iff.mpr hcells)
  have hboth := henc
  rw [e1] at hboth
  simp only [Option.some.injEq, Prod.mk.injEq] at hboth
  obtain ⟨hpage, hleaves⟩ := hboth
  have hw : Bare arrs → P.w = false := by
    intro hb
    have hany : (pageBits (q + 1) arrs).any Option.isSome = false := by
      rw [List.any_eq_false]
      intro x hx
      unfold pageBits at hx
      obtain ⟨j, _, rfl⟩ := List.mem_map.mp hx
      rw [layerBits_isSome]
      unfold hasBitmap
      rw [Bool.not_eq_true, List.any_eq_false]
      intro a ha
      cases hj : a.bitmaps[j]? with
      | none => simp
      | some b => rw [hb a ha b (List.mem_of_getElem? hj)]; simp
    rw [hany] at hpage
    have := congrArg RepDefs.defs hpage
    unfold FlatPart.page at this
    cases hPw : P.w with
    | false => rfl
    | true => rw [hPw] at this; simp at this
  have hil : (flatLayers q arrs).length = q + 1 := by simp [flatLayers]
  generalize flatLayers q arrs = inner at *
  have hlen : P.items.length = (arrs.flatMap Arr.cells).length := by rw [e3, List.length_map]
  refine ⟨inner, P, ?_, e2, hil, ?_, flat_levelsOk inner P e2, ?_, e3, ?_, ?_, ?_⟩
  · rw [e1, flat_repDefs inner P e2, show valsOf (P.rows inner).rows.flatten = P.items.map (·.2) from (itemSlots_flatten P.items).2]
  · exact flat_rowsOk inner P e2 (by intro h; rw [h] at e3; exact hcells (by rw [e3]; rfl)) (by omega) (by rw [hlen]; exact hrows)
  · apply flat_plain inner P e2 (by omega)
    intro hPw
    rcases hu with hb | ⟨c, hc, hcc⟩
    · rw [hw hb] at hPw; cases hPw
    · rw [e3] at hc
      obtain ⟨e, he, rfl⟩ := List.mem_map.mp hc
      exact ⟨e, he, levelCell_clean inner e hcc⟩
  · rw [show valsOf (P.rows inner).rows.flatten = P.items.map (·.2) from (itemSlots_flatten P.items).2]; exact hleaves
  · rw [← hsum, ← hlen]; simp [FlatPart.rows]
  · rw [← hlen]; exact itemSlots_length P.items

/-- **C91** for values of a fixed width in any number of structs, without lists.  What is missing of the claim: arrays with a bitmap that
has no nulls, if there are no nulls around it either, and 255 structs or more. -/
theorem C91_flat_fixed_width_partial (bpv : Nat) (hbpv : 0 < bpv) (q : Nat) (hq : q + 1 < 256) (arrs : List (Arr (List Nat)))
    (hok : ∀ a ∈ arrs, a.Ok (structs q)) (hcells : arrs.flatMap Arr.cells ≠ [])
    (hv : ∀ v ∈ arrs.flatMap Arr.leaves, v.length = bpv)
    (hsize : (arrs.flatMap Arr.leaves).flatten.length + 4 * (arrs.flatMap Arr.cells).length < 2 ^ 64)
    (hu : Bare arrs ∨ ∃ c ∈ arrs.flatMap Arr.cells, c.clean = false) :
    ∃ p, storeZip writeFixed (structs q) arrs = some p ∧
      ∀ (ranges : List (Nat × Nat)) (batches : List Nat), RangesOk (arrs.flatMap Arr.cells).length 0 ranges →
        BatchesOk (selected (arrs.flatMap Arr.cells) ranges).length batches →
        ∃ out, loadFixed bpv (structs q) p ranges batches = some out ∧
          out.map Arr.cells = inBatches batches (selected (arrs.flatMap Arr.cells) ranges) := by
  obtain ⟨inner, P, e1, e2, hil, hro, hlv, hpl, e3, hleaves, hrl, hfl⟩ := flat_part q hq arrs hok hcells (by omega) hu
  have hlen : (arrs.flatMap Arr.cells).length = (arrs.map Arr.len).sum := by
    rw [← hrl, e3]; simp [FlatPart.rows]
  obtain ⟨p, hw, hread⟩ := C90_fixed_width_partial bpv 1 (arrs.map Arr.len).sum (P.rows inner) hbpv (by omega) hro hlv hpl
    (by rw [hleaves]; exact hv) (by rw [hrl]; omega) (by unfold pageSize; rw [hleaves, hfl]; exact hsize)
  refine ⟨p, by unfold storeZip; rw [e1]; exact hw, ?_⟩
  intro ranges batches hr hb
  have hsel : selected (P.rows inner).rows ranges = (selected P.items ranges).map itemSlot := selected_map _ _ _
  have hsc : selected (arrs.flatMap Arr.cells) ranges = (selected P.items ranges).map (levelCell inner) := by rw [e3, selected_map]
  have hrd := hread ranges batches (by rw [← hlen]; exact hr) (by
    rw [selected_range_length _ (arrs.flatMap Arr.cells) ranges hlen.symm]; exact hb)
  rw [scaled_one, map_mul_one, hsel, inBatches_map, List.map_map] at hrd
  have hlay : p.layers = inner := writeFixed_layers _ _ _ p hw
  unfold loadFixed
  rw [itemsPerRow_structs, hrd, hlay, Option.bind_some, hsc, inBatches_map]
  apply assemble_exists
  intro batch hbt
  exact flat_batch inner q hil P e2 batch (fun e he => mem_selected _ _ _ (mem_inBatches _ _ _ hbt e he))

theorem blank_items (batch : List (Nat × List Nat)) :
    (batch.map itemSlot).flatten.map blank = ((batch.map blankItem).map itemSlot).flatten := by
  induction batch with
  | nil => rfl
  | cons e batch ih =>
    simp only [List.map_cons, List.flatten_cons, List.map_append, ih]
    rfl

/-- **C91** for strings in any number of structs, without lists.  What is missing of the claim is as for values of a fixed width. -/
theorem C91_flat_strings_partial (q : Nat) (hq : q + 1 < 256) (arrs : List (Arr (List Nat)))
    (hok : ∀ a ∈ arrs, a.Ok (structs q)) (hcells : arrs.flatMap Arr.cells ≠ [])
    (hbytes : (arrs.flatMap Arr.leaves).flatten.length < 2 ^ 32) (hrows : (arrs.flatMap Arr.cells).length < 2 ^ 60)
    (hu : Bare arrs ∨ ∃ c ∈ arrs.flatMap Arr.cells, c.clean = false) :
    ∃ p, storeZip writeVariable (structs q) arrs = some p ∧
      ∀ (ranges : List (Nat × Nat)) (batches : List Nat), RangesOk (arrs.flatMap Arr.cells).length 0 ranges →
        BatchesOk (selected (arrs.flatMap Arr.cells) ranges).length batches →
        ∃ out, loadStrings (structs q) p ranges batches = some out ∧
          out.map Arr.cells = inBatches batches (selected (arrs.flatMap Arr.cells) ranges) := by
  obtain ⟨inner, P, e1, e2, hil, hro, hlv, hpl, e3, hleaves, hrl, hfl⟩ := flat_part q hq arrs hok hcells (by omega) hu
  have hitems : (P.rows inner).rows.length = (arrs.flatMap Arr.cells).length := by rw [e3]; simp [FlatPart.rows]
  obtain ⟨p, hw, hread⟩ := C90_strings_partial (P.rows inner) hro hlv hpl (by rw [hleaves]; exact hbytes)
    (by unfold pageSize; rw [hleaves, hfl]; omega)
  refine ⟨p, by unfold storeZip; rw [e1]; simp only; rw [← hrl]; exact hw, ?_⟩
  intro ranges batches hr hb
  have hsel : selected (P.rows inner).rows ranges = (selected P.items ranges).map itemSlot := selected_map _ _ _
  have hsc : selected (arrs.flatMap Arr.cells) ranges = (selected P.items ranges).map (levelCell inner) := by rw [e3, selected_map]
  have hrd := hread ranges batches (by rw [hitems]; exact hr) (by
    rw [hsel, List.length_map]; rw [hsc, List.length_map] at hb; exact hb.2)
  rw [hsel, inBatches_map, List.map_map] at hrd
  have hlay : p.layers = inner := writeVariable_layers _ _ _ p hw
  unfold loadStrings
  rw [hrd, hlay, Option.bind_some, hsc, inBatches_map]
  apply assemble_exists
  intro batch hbt
  have hmem : ∀ e ∈ batch, e ∈ P.items := fun e he => mem_selected _ _ _ (mem_inBatches _ _ _ hbt e he)
  have hd := listDepth_items inner e2.innerItems
  have hP' : FlatOk inner (⟨P.w, P.items.map blankItem⟩ : FlatPart (List Nat)) := by
    refine ⟨e2.innerItems, ?_, e2.innerDefs⟩
    intro e he
    obtain ⟨x, hx, rfl⟩ := List.mem_map.mp he
    exact e2.levels x hx
  obtain ⟨arr, h1, h2⟩ := flat_batch inner q hil ⟨P.w, P.items.map blankItem⟩ hP' (batch.map blankItem) (by
    intro e he
    obtain ⟨x, hx, rfl⟩ := List.mem_map.mp he
    exact List.mem_map_of_mem (hmem x hx))
  refine ⟨arr, ?_, ?_⟩
  · have hvals : valsOf ((batch.map itemSlot).flatten.map blank) = valsOf ((batch.map blankItem).map itemSlot).flatten := by rw [blank_items]
    have hdfn : (batch.map itemSlot).flatten.map Slot.dfn = ((batch.map blankItem).map itemSlot).flatten.map Slot.dfn := by
      rw [(itemSlots_flatten batch).1, (itemSlots_flatten (batch.map blankItem)).1, List.map_map]
      rfl
    simp only [Function.comp, expectedStrings, hvals]
    refine decodePages_alike q _ _ _ arr ?_ ?_ h1
    · rfl
    · simp only [expected, defsOf, FlatPart.rows]
      rcases Bool.eq_false_or_eq_true P.w with hPw | hPw
      · left; simp [hPw, hdfn]
      · right
        intro l hl
        rcases e2.innerItems l hl with e | e
        · subst e; have := e2.innerDefs hl; rw [hPw] at this; cases this
        · subst e; rfl
  · rw [h2, List.map_map]
    apply List.map_congr_left
    intro e he
    exact levelCell_blank inner e2.innerItems e (e2.levels e (hmem e he))

/-! ### Columns of lists -/

/-- There is a null list, an empty one, or a null element, where the lists are inside of `p` structs. -/
def Marked {V : Type} (p : Nat) (cells : List (Val V)) : Prop :=
  ∃ c ∈ cells, c.listAt p = none ∨ c.listAt p = some [] ∨ ∃ xs, c.listAt p = some xs ∧ ∃ x ∈ xs, x.clean = false

theorem list_part (p q : Nat) (hq : q + 3 < 256) (arrs : List (Arr (List Nat))) (hok : ∀ a ∈ arrs, a.Ok (lists p q))
    (hl : ListPage p (q + 1) arrs) (ho : ∀ a ∈ arrs, ∀ b ∈ a.bitmaps.drop (q + 2), b = none)
    (hrows : (arrs.flatMap Arr.cells).length < 2 ^ 64) (hu : Bare arrs ∨ Marked p (arrs.flatMap Arr.cells)) :
    ∃ (inner outer : List Layer) (P : Part (List Nat)),
      encode (lists p q) arrs = some ((P.slotRows inner outer).repDefs, valsOf (P.slotRows inner outer).rows.flatten) ∧
      PartOk inner outer P ∧ inner.length = q + 1 ∧ outer.length = p ∧ RowsOk (P.slotRows inner outer) ∧ LevelsOk (P.slotRows inner outer) ∧
      Plain (P.slotRows inner outer) ∧ arrs.flatMap Arr.cells = P.rows.map (fun r => wrap p (rowOf inner r)) ∧
      (P.slotRows inner outer).rows.length = (arrs.flatMap Arr.cells).length ∧ (Marked p (arrs.flatMap Arr.cells) → P.w = true) := by
  obtain ⟨inner, outer, P, e1, e2, e3, e4, e5, e6, e7⟩ := encode_list_part p q arrs hok hl
  have hlen : P.rows.length = (arrs.flatMap Arr.cells).length := by rw [e3, List.length_map]
  have hne : P.rows ≠ [] := by
    obtain ⟨cl, hcl, _⟩ := hl.element
    intro h
    rw [e3, h] at hcl
    simp at hcl
  have hmark : Marked p (arrs.flatMap Arr.cells) → ∃ r ∈ P.rows, r = none ∨ r = some [] ∨ ∃ e ∈ rowVals r, e.1 ≠ 0 := by
    rintro ⟨c, hc, hcase⟩
    rw [e3] at hc
    obtain ⟨r, hr, rfl⟩ := List.mem_map.mp hc
    refine ⟨r, hr, ?_⟩
    rw [rowOf, listAt_wrap] at hcase
    rcases hcase with h | h | ⟨xs, h, x, hx, hcl⟩
    · left; simpa using h
    · right; left
      cases r with
      | none => simp at h
      | some l => simp at h; subst h; rfl
    · right; right
      cases r with
      | none => simp at h
      | some l =>
        simp only [Option.map_some, Option.some.injEq] at h
        subst h
        obtain ⟨e, he, rfl⟩ := List.mem_map.mp hx
        exact ⟨e, by simpa [rowVals] using he, levelCell_clean inner e hcl⟩
  have hwt : Marked p (arrs.flatMap Arr.cells) → P.w = true := by
    intro hm
    obtain ⟨r, hr, hcase⟩ := hmark hm
    cases hPw : P.w with
    | true => rfl
    | false =>
      exfalso
      obtain ⟨x, xs, hx⟩ := (specials_none _ _).mp (e2.ok.specials hPw) r hr
      rcases hcase with h | h | ⟨e, he, h0⟩
      · rw [h] at hx; cases hx
      · rw [h] at hx; cases hx
      · have h1 : defSum inner = 0 :=
          defSum_no_null inner e2.ok.innerItems (fun hm => by have := e2.ok.innerDefs hm; rw [hPw] at this; cases this)
        have := e2.ok.levels e (List.mem_flatMap.mpr ⟨r, hr, he⟩)
        omega
  refine ⟨inner, outer, P, ?_, e2, e4, e5, ?_, list_levelsOk inner outer P e2, ?_, e3, ?_, hwt⟩
  · rw [e1, list_repDefs inner outer P e2, show valsOf (P.slotRows inner outer).rows.flatten = (flat P.rows).map (·.2) from
      (listSlots_flatten (P.nl inner) (P.el inner) P.rows).2.2]
  · exact (list_rowsOk inner outer P e2 hne (by omega) (by rw [hlen]; exact hrows)).1
  · apply list_plain inner outer P e2 (by omega) (e6 ho)
    intro hPw
    rcases hu with hb | hm
    · by_cases hall : ∀ c ∈ arrs.flatMap Arr.cells, ∃ x xs, c.listAt p = some (x :: xs)
      · rw [e7 hb hall] at hPw; cases hPw
      · apply hmark
        simp only [Classical.not_forall] at hall
        obtain ⟨c, hc, hx⟩ := hall
        refine ⟨c, hc, ?_⟩
        cases hla : c.listAt p with
        | none => exact Or.inl rfl
        | some l =>
          cases l with
          | nil => exact Or.inr (Or.inl rfl)
          | cons x xs => exact absurd ⟨x, xs, hla⟩ hx
    · exact hmark hm
  · rw [← hlen]; simp [Part.slotRows]

/-- **C91** for lists of values of a fixed width, in structs and with structs inside.  What is missing of the claim: lists of lists, structs around
the lists that have a bitmap, bitmaps of pages in which nothing is null, and what is missing of C88 (`ListPage`). -/
theorem C91_lists_fixed_width_partial (bpv : Nat) (hbpv : 0 < bpv) (p q : Nat) (hq : q + 3 < 256) (arrs : List (Arr (List Nat)))
    (hok : ∀ a ∈ arrs, a.Ok (lists p q)) (hl : ListPage p (q + 1) arrs) (ho : ∀ a ∈ arrs, ∀ b ∈ a.bitmaps.drop (q + 2), b = none)
    (hu : Bare arrs ∨ Marked p (arrs.flatMap Arr.cells)) (hv : ∀ v ∈ arrs.flatMap Arr.leaves, v.length = bpv)
    (hsize : (arrs.flatMap Arr.leaves).flatten.length + 4 * ((arrs.flatMap Arr.leaves).length + (arrs.flatMap Arr.cells).length) < 2 ^ 64) :
    ∃ pg, storeZip writeFixed (lists p q) arrs = some pg ∧
      ∀ (ranges : List (Nat × Nat)) (batches : List Nat), RangesOk (arrs.flatMap Arr.cells).length 0 ranges →
        BatchesOk (selected (arrs.flatMap Arr.cells) ranges).length batches →
        ∃ out, loadFixed bpv (lists p q) pg ranges batches = some out ∧
          out.map Arr.cells = inBatches batches (selected (arrs.flatMap Arr.cells) ranges) := by
  obtain ⟨inner, outer, P, e1, e2, hil, hol, hro, hlv, hpl, e3, hrl, _⟩ := list_part p q hq arrs hok hl ho (by omega) hu
  have hsub := encode_leaves _ _ _ _ e1
  have hlen := sum_lens (lists p q) arrs hok
  have hslots : (P.slotRows inner outer).rows.flatten.length ≤ (arrs.flatMap Arr.leaves).length + (arrs.flatMap Arr.cells).length := by
    have h1 := listSlots_length (P.nl inner) (P.el inner) P.rows
    have h2 := hsub.length_le
    rw [show valsOf (P.slotRows inner outer).rows.flatten = (flat P.rows).map (·.2) from
      (listSlots_flatten (P.nl inner) (P.el inner) P.rows).2.2, List.length_map] at h2
    have h3 : P.rows.length = (arrs.flatMap Arr.cells).length := by rw [e3, List.length_map]
    have h4 : (P.slotRows inner outer).rows.flatten.length = (P.rows.map (listSlots (P.nl inner) (P.el inner))).flatten.length := rfl
    omega
  obtain ⟨pg, hw, hread⟩ := C90_fixed_width_partial bpv 1 (arrs.map Arr.len).sum (P.slotRows inner outer) hbpv (by omega) hro hlv hpl
    (fun v hm => hv v (hsub.subset hm)) (by omega) (by
      unfold pageSize
      have := flatten_length_le hsub
      omega)
  refine ⟨pg, by unfold storeZip; rw [e1]; exact hw, ?_⟩
  intro ranges batches hr hb
  have hsel : selected (P.slotRows inner outer).rows ranges = (selected P.rows ranges).map (listSlots (P.nl inner) (P.el inner)) := selected_map _ _ _
  have hsc : selected (arrs.flatMap Arr.cells) ranges = (selected P.rows ranges).map (fun r => wrap p (rowOf inner r)) := by rw [e3, selected_map]
  have hrd := hread ranges batches (by rw [hlen]; exact hr) (by
    rw [selected_range_length _ (arrs.flatMap Arr.cells) ranges hlen]; exact hb)
  rw [scaled_one, map_mul_one, hsel, inBatches_map, List.map_map] at hrd
  have hlay : pg.layers = inner ++ listLayer P.nulls P.empties :: outer := writeFixed_layers _ _ _ pg hw
  unfold loadFixed
  rw [itemsPerRow_lists, hrd, hlay, Option.bind_some, hsc, inBatches_map]
  apply assemble_exists
  intro batch hbt
  exact list_batch inner outer p q hil hol P e2 batch (fun e he => mem_selected _ _ _ (mem_inBatches _ _ _ hbt e he))

/-- **C91** for lists of strings, in structs and with structs inside.  What is missing of the claim: as for values of a fixed width, and pages in
which nothing is null and no list is empty. -/
theorem C91_lists_strings_partial (p q : Nat) (hq : q + 3 < 256) (arrs : List (Arr (List Nat)))
    (hok : ∀ a ∈ arrs, a.Ok (lists p q)) (hl : ListPage p (q + 1) arrs) (ho : ∀ a ∈ arrs, ∀ b ∈ a.bitmaps.drop (q + 2), b = none)
    (hm : Marked p (arrs.flatMap Arr.cells)) (hbytes : (arrs.flatMap Arr.leaves).flatten.length < 2 ^ 32)
    (hsize : (arrs.flatMap Arr.leaves).length + (arrs.flatMap Arr.cells).length < 2 ^ 60) :
    ∃ pg, storeZip writeVariable (lists p q) arrs = some pg ∧
      ∀ (ranges : List (Nat × Nat)) (batches : List Nat), RangesOk (arrs.flatMap Arr.cells).length 0 ranges →
        BatchesOk (selected (arrs.flatMap Arr.cells) ranges).length batches →
        ∃ out, loadStrings (lists p q) pg ranges batches = some out ∧
          out.map Arr.cells = inBatches batches (selected (arrs.flatMap Arr.cells) ranges) := by
  obtain ⟨inner, outer, P, e1, e2, hil, hol, hro, hlv, hpl, e3, hrl, hwt⟩ := list_part p q hq arrs hok hl ho (by omega) (Or.inr hm)
  have hPw := hwt hm
  have hsub := encode_leaves _ _ _ _ e1
  have hlen := sum_lens (lists p q) arrs hok
  have hslots : (P.slotRows inner outer).rows.flatten.length ≤ (arrs.flatMap Arr.leaves).length + (arrs.flatMap Arr.cells).length := by
    have h1 := listSlots_length (P.nl inner) (P.el inner) P.rows
    have h2 := hsub.length_le
    rw [show valsOf (P.slotRows inner outer).rows.flatten = (flat P.rows).map (·.2) from
      (listSlots_flatten (P.nl inner) (P.el inner) P.rows).2.2, List.length_map] at h2
    have h3 : P.rows.length = (arrs.flatMap Arr.cells).length := by rw [e3, List.length_map]
    have h4 : (P.slotRows inner outer).rows.flatten.length = (P.rows.map (listSlots (P.nl inner) (P.el inner))).flatten.length := rfl
    omega
  have hfl := flatten_length_le hsub
  obtain ⟨pg, hw, hread⟩ := C90_strings_partial (P.slotRows inner outer) hro hlv hpl (by omega) (by unfold pageSize; omega)
  refine ⟨pg, by unfold storeZip; rw [e1]; simp only; rw [hlen, ← hrl]; exact hw, ?_⟩
  intro ranges batches hr hb
  have hsel : selected (P.slotRows inner outer).rows ranges = (selected P.rows ranges).map (listSlots (P.nl inner) (P.el inner)) := selected_map _ _ _
  have hsc : selected (arrs.flatMap Arr.cells) ranges = (selected P.rows ranges).map (fun r => wrap p (rowOf inner r)) := by rw [e3, selected_map]
  have hrd := hread ranges batches (by rw [hrl]; exact hr) (by
    rw [hsel, List.length_map]; rw [hsc, List.length_map] at hb; exact hb.2)
  rw [hsel, inBatches_map, List.map_map] at hrd
  have hlay : pg.layers = inner ++ listLayer P.nulls P.empties :: outer := writeVariable_layers _ _ _ pg hw
  unfold loadStrings
  rw [hrd, hlay, Option.bind_some, hsc, inBatches_map]
  apply assemble_exists
  intro batch hbt
  have hmem : ∀ r ∈ batch, r ∈ P.rows := fun r he => mem_selected _ _ _ (mem_inBatches _ _ _ hbt r he)
  have hd := listDepth_list inner outer P.nulls P.empties e2.ok.innerItems e2.ok.outerItems
  obtain ⟨arr, h1, h2⟩ := list_batch inner outer p q hil hol ⟨P.nulls, P.empties, P.w, P.rows.map blankRow⟩ (part_blank inner outer P e2)
    (batch.map blankRow) (by
      intro r hr
      obtain ⟨x, hx, rfl⟩ := List.mem_map.mp hr
      exact List.mem_map_of_mem (hmem x hx))
  refine ⟨arr, ?_, ?_⟩
  · have hb := blank_rows (P.nl inner) (P.el inner) batch
    have hrep : ∀ l : List (Slot (List Nat)), (l.map blank).map Slot.rep = l.map Slot.rep := by intro l; rw [List.map_map]; rfl
    have hdfn : ∀ l : List (Slot (List Nat)), (l.map blank).map Slot.dfn = l.map Slot.dfn := by intro l; rw [List.map_map]; rfl
    simp only [expected, repsOf, defsOf, Part.slotRows, Part.nl, Part.el, hd, hPw] at h1
    simp only [Part.nl, Part.el] at hb
    simp only [Function.comp, expectedStrings, repsOf, defsOf, Part.slotRows, Part.nl, Part.el, hd, hPw]
    rw [← hb, hrep, hdfn] at h1
    simpa using h1
  · rw [h2, List.map_map]
    apply List.map_congr_left
    intro r hr
    simp only [Function.comp]
    rw [rowOf_blank inner e2.ok.innerItems r (fun e he => e2.ok.levels e (List.mem_flatMap.mpr ⟨r, hmem r hr, he⟩))]

/-! ### Where the claim fails -/

def storeAndLoadFixed (bpv : Nat) (ks : List Kind) (arrs : List (Arr (List Nat))) (ranges : List (Nat × Nat)) (batches : List Nat) :=
  (storeZip writeFixed ks arrs).bind fun p => loadFixed bpv ks p ranges batches

def storeAndLoadStrings (ks : List Kind) (arrs : List (Arr (List Nat))) (ranges : List (Nat × Nat)) (batches : List Nat) :=
  (storeZip writeVariable ks arrs).bind fun p => loadStrings ks p ranges batches

/-- Two values with a bitmap that says that both are there. -/
def allThere : List (Arr (List Nat)) := [.prim [[1, 2], [3, 4]] (some [true, true])]

/-- They cannot be read: the reader takes levels of which all are 0 to be absent when it looks for the size of a row, but not when it reads. -/
theorem C91_all_valid_bitmap_unreadable : storeAndLoadFixed 2 [] allThere [(0, 2)] [2] = none ∧
    storeAndLoadStrings [] allThere [(0, 2)] [2] = none := by
  constructor <;> decide +kernel

/-- A list of two strings and a list of one, without nulls. -/
def stringLists : List (Arr (List Nat)) := [.list [0, 2, 3] (.prim [[1, 2], [3, 4], [9]] none) none]

/-- The reader of strings gives the unraveler definition levels even if there are none, of which it asserts that there are as many as repetition
levels. -/
theorem C91_string_lists_without_nulls_panic : (storeZip writeVariable [.list] stringLists).isSome = true ∧
    storeAndLoadStrings [.list] stringLists [(0, 2)] [2] = none := by
  constructor <;> decide +kernel

/-- A null list in a struct that may be null. -/
def structOfLists : List (Arr (List Nat)) := [.struct (.list [0, 2, 2] (.prim [[1], [3]] none) (some [true, false])) (some [true, true])]

theorem C91_null_list_in_nullable_struct_panics : storeAndLoadFixed 1 [.struct, .list] structOfLists [(0, 2)] [2] = none := by
  decide +kernel

theorem C91_fixed_width_violated : ¬ C91_fixed_width_statement := by
  intro h
  have hc : allThere.flatMap Arr.cells = [.valid (.item [1, 2]), .valid (.item [3, 4])] := rfl
  obtain ⟨p, h1, h2⟩ := h 2 [] allThere (by decide)
    ⟨by simp, by
      intro pg hpg a ha
      rw [List.mem_singleton] at hpg
      subst hpg
      simp only [allThere, List.mem_singleton] at ha
      subst ha
      intro bs hbs
      simp at hbs
      subst hbs
      rfl, by
      intro pg hpg
      rw [List.mem_singleton] at hpg
      subst hpg
      rw [hc]
      simp⟩ (by unfold FixedVal; decide) (by decide)
  obtain ⟨out, h3, _⟩ := h2 [(0, 2)] [2] ⟨by omega, by omega, by rw [hc]; decide, trivial⟩ ⟨by decide, by rw [hc]; decide⟩
  have := C91_all_valid_bitmap_unreadable.1
  unfold storeAndLoadFixed at this
  rw [h1, Option.bind_some, h3] at this
  cases this

theorem C91_strings_violated : ¬ C91_strings_statement := by
  intro h
  have hc : stringLists.flatMap Arr.cells =
      [.valid (.list [.valid (.item [1, 2]), .valid (.item [3, 4])]), .valid (.list [.valid (.item [9])])] := rfl
  obtain ⟨p, h1, h2⟩ := h [.list] stringLists
    ⟨by simp, by
      intro pg hpg a ha
      rw [List.mem_singleton] at hpg
      subst hpg
      simp only [stringLists, List.mem_singleton] at ha
      subst ha
      exact ⟨by intro bs h; simp at h, by intro bs h; simp at h, by simp, by simp [Rising], by decide⟩, by
      intro pg hpg
      rw [List.mem_singleton] at hpg
      subst hpg
      rw [hc]
      simp⟩ (by decide) (by decide)
  obtain ⟨out, h3, _⟩ := h2 [(0, 2)] [2] ⟨by omega, by omega, by rw [hc]; decide, trivial⟩ ⟨by decide, by rw [hc]; decide⟩
  have := C91_string_lists_without_nulls_panic.2
  unfold storeAndLoadStrings at this
  rw [h1, Option.bind_some, h3] at this
  cases this

/-! ### Cases -/

/-- Two values, of which one is null, in a struct. -/
def someNull : List (Arr (List Nat)) := [.struct (.prim [[1, 2], [3, 4]] (some [true, false])) none, .struct (.prim [[5, 6]] none) (some [true])]

theorem C91_flat_nonvacuous : (∀ a ∈ someNull, a.Ok (structs 1)) ∧ (∃ c ∈ someNull.flatMap Arr.cells, c.clean = false) ∧
    (∀ v ∈ someNull.flatMap Arr.leaves, v.length = 2) ∧
    storeAndLoadFixed 2 (structs 1) someNull [(0, 1), (1, 3)] [2, 1] =
      some [.struct (.prim [[1, 2], [3, 4]] (some [true, false])) (some [true, true]), .struct (.prim [[5, 6]] (some [true])) (some [true])] ∧
    storeAndLoadStrings (structs 1) someNull [(0, 1), (1, 3)] [2, 1] =
      some [.struct (.prim [[1, 2], []] (some [true, false])) (some [true, true]), .struct (.prim [[5, 6]] (some [true])) (some [true])] := by
  refine ⟨?_, ?_, by decide, by decide +kernel, by decide +kernel⟩
  · intro a ha
    simp only [someNull, List.mem_cons, List.not_mem_nil, or_false] at ha
    rcases ha with rfl | rfl
    · exact ⟨by intro bs h; simp at h; subst h; rfl, by intro bs h; simp at h⟩
    · exact ⟨by intro bs h; simp at h, by intro bs h; simp at h; subst h; rfl⟩
  · exact ⟨.valid .null, by simp [someNull, Arr.cells, mask], rfl⟩

/-- Lists of strings in a struct: two strings, of which one is null, no strings, and one. -/
def nullLists : List (Arr (List Nat)) := [.struct (.list [0, 2, 2, 3] (.prim [[1, 2], [3, 4], [9]] (some [true, false, true])) none) none]

theorem C91_lists_nonvacuous : (∀ a ∈ nullLists, a.Ok (lists 1 0)) ∧ ListPage 1 1 nullLists ∧
    (∀ a ∈ nullLists, ∀ b ∈ a.bitmaps.drop 2, b = none) ∧ Marked 1 (nullLists.flatMap Arr.cells) ∧
    storeAndLoadStrings (lists 1 0) nullLists [(0, 1), (2, 3)] [2] =
      some [.struct (.list [0, 2, 3] (.prim [[1, 2], [], [9]] (some [true, false, true])) none) none] := by
  have hc : nullLists.flatMap Arr.cells =
      [.valid (.valid (.list [.valid (.item [1, 2]), .null])), .valid (.valid (.list [])), .valid (.valid (.list [.valid (.item [9])]))] := rfl
  refine ⟨?_, ⟨?_, ?_, ?_⟩, by decide, ?_, by decide +kernel⟩
  · intro a ha
    simp only [nullLists, List.mem_singleton] at ha
    subst ha
    exact ⟨⟨by intro bs h; simp at h; subst h; rfl, by intro bs h; simp at h, by simp, by simp [Rising], by decide⟩, by intro bs h; simp at h⟩
  · rw [hc]
    intro c hm
    simp only [List.mem_cons, List.not_mem_nil, or_false] at hm
    rcases hm with rfl | rfl | rfl <;> rfl
  · rw [hc]; exact ⟨_, List.mem_cons_self .., _, _, rfl⟩
  · right; left; rw [hc]; exact ⟨.valid (.valid (.list [])), by simp, Or.inr rfl⟩
  · rw [hc]; exact ⟨.valid (.valid (.list [])), by simp, Or.inr (Or.inl rfl)⟩

end Verif.Zip
