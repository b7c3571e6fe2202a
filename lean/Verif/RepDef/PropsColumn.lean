import Verif.RepDef.LemmasColumn
import Verif.Mini.PropsBitpack
import Verif.Mini.PropsStrings
/-!
# C89: columns are read from mini-block pages as they were written
-/
namespace Verif.RepDef
open Verif.Mini

/-- The claim, for values of a fixed width: the arrays of a page (of which some value is not null, as other pages are not
mini-block pages) can be stored, and any ranges of rows, read in any batches, are arrays with the cells of these rows. -/
def C89_columns_round_trip_statement : Prop :=
  ∀ (bpv : Nat) (ks : List Kind) (arrs : List (Arr (List Nat))) (ranges : List (Nat × Nat)) (batches : List Nat),
    0 < bpv → 2 * bpv < 8186 → PagesOk ks [arrs] → (∀ a ∈ arrs, ∀ v ∈ a.leaves, v.length = bpv ∧ ∀ b ∈ v, b < 256) →
    (∃ a ∈ arrs, a.leaves ≠ []) → RangesOk (arrs.flatMap Arr.cells).length 0 ranges →
    BatchesOk (selected (arrs.flatMap Arr.cells) ranges).length batches →
    ∃ x out, storeColumn (fixedCodec bpv) ks arrs = some x ∧ loadColumn ks x ranges batches = some out ∧
      out.map Arr.cells = inBatches batches (selected (arrs.flatMap Arr.cells) ranges)

/-! ### Columns without lists -/

/-- What is needed of a codec for some values. -/
def Serves {V : Type} (codec : Codec V) (vals : List V) : Prop :=
  ∀ r : Rows V, RowsOk r → listDepth r.layers = 0 → valsOf r.rows.flatten = vals →
    ∃ p, write codec r = some p ∧ ∀ (ranges : List (Nat × Nat)) (batches : List Nat), RangesOk r.rows.length 0 ranges →
      BatchesOk (selected r.rows ranges).length batches →
      readPage codec p ranges batches = some ((inBatches batches (selected r.rows ranges)).map (expected r))

/-- Columns without lists with any codec that serves. -/
theorem flat_column {V : Type} (codecOf : List V → Codec V) (q : Nat) (hq : q + 1 < 65536) (arrs : List (Arr V))
    (hok : ∀ a ∈ arrs, a.Ok (List.replicate q .struct)) (hcells : arrs.flatMap Arr.cells ≠ [])
    (hrows : (arrs.flatMap Arr.cells).length < 2 ^ 64)
    (hs : Serves (codecOf (arrs.flatMap Arr.leaves)) (arrs.flatMap Arr.leaves)) :
    ∃ x, storeColumn codecOf (List.replicate q .struct) arrs = some x ∧
      ∀ (ranges : List (Nat × Nat)) (batches : List Nat), RangesOk (arrs.flatMap Arr.cells).length 0 ranges →
        BatchesOk (selected (arrs.flatMap Arr.cells) ranges).length batches →
        ∃ out, loadColumn (List.replicate q .struct) x ranges batches = some out ∧
          out.map Arr.cells = inBatches batches (selected (arrs.flatMap Arr.cells) ranges) := by
  obtain ⟨P, e1, e2, e3⟩ := encode_flat_part q arrs hok hcells
  have hne : arrs ≠ [] := by intro h; rw [h] at hcells; exact hcells rfl
  have hleaves : P.items.map (·.2) = arrs.flatMap Arr.leaves := by
    have hcl : ∀ a ∈ arrs, a.cells.length = a.len := fun a ha => cells_length q a (hok a ha)
    have hsum : (arrs.flatMap Arr.cells).length = (arrs.map Arr.len).sum := by
      rw [List.length_flatMap]; congr 1; exact List.map_congr_left hcl
    have := encode_flat q arrs hne hok (by rw [← hsum]; exact List.length_pos_iff.mpr hcells)
    rw [e1] at this
    simp only [Option.some.injEq, Prod.mk.injEq] at this
    exact this.2
  generalize hin : flatLayers q arrs = inner at *
  have hil : inner.length = q + 1 := by rw [← hin]; simp [flatLayers]
  have hlen : P.items.length = (arrs.flatMap Arr.cells).length := by rw [e3, List.length_map]
  have hro := flat_rowsOk inner P e2 (by intro h; rw [h] at e3; exact hcells (by rw [e3]; rfl)) (by omega) (by rw [hlen]; exact hrows)
  have hd := listDepth_items inner e2.innerItems
  obtain ⟨pg, hw, hread⟩ := hs (P.rows inner) hro hd (by
    rw [← hleaves]; exact (itemSlots_flatten P.items).2)
  refine ⟨(codecOf (arrs.flatMap Arr.leaves), pg), ?_, ?_⟩
  · unfold storeColumn
    rw [e1, hleaves]
    simp only
    unfold write at hw
    rw [flat_repDefs inner P e2, show valsOf (P.rows inner).rows.flatten = P.items.map (·.2) from (itemSlots_flatten P.items).2, hleaves] at hw
    rw [hw]; rfl
  · intro ranges batches hr hb
    have hrl : (P.rows inner).rows.length = P.items.length := by simp [FlatPart.rows]
    have hsel : selected (P.rows inner).rows ranges = (selected P.items ranges).map itemSlot := selected_map _ _ _
    have hsc : selected (arrs.flatMap Arr.cells) ranges = (selected P.items ranges).map (levelCell inner) := by rw [e3, selected_map]
    have hrd := hread ranges batches (by rw [hrl, hlen]; exact hr) (by rw [hsel, List.length_map]; rw [hsc, List.length_map] at hb; exact hb)
    have hlay : pg.layers = inner := writePage_layers _ _ _ pg hw
    rw [hsel, inBatches_map, List.map_map] at hrd
    unfold loadColumn
    simp only
    rw [hrd]
    simp only
    rw [hlay, List.mapM_map]
    obtain ⟨out, m1, m2, m3⟩ := mapM_exists
      (fun batch : List (Nat × V) => decodePages (List.replicate q .struct) [(⟨(expected (P.rows inner) (batch.map itemSlot)).rep,
        (expected (P.rows inner) (batch.map itemSlot)).defs, inner⟩, (expected (P.rows inner) (batch.map itemSlot)).data)])
      (fun batch arr => arr.cells = batch.map (levelCell inner)) (inBatches batches (selected P.items ranges)) (by
        intro batch hbt
        exact flat_batch inner q hil P e2 batch (fun e he => mem_selected _ _ _ (mem_inBatches _ _ _ hbt e he)))
    refine ⟨out, m1, ?_⟩
    rw [hsc, inBatches_map]
    exact map_of_zip _ _ _ _ m2 m3

/-- **C89** for fixed width values in any number of structs, without lists: the claim holds as it stands (if there are fewer
than 65535 structs around each other, as levels are 16 bit integers). -/
theorem C89_flat_fixed_width_round_trip (bpv : Nat) (hb : 2 * bpv < 8186) (q : Nat) (hq : q + 1 < 65536) (arrs : List (Arr (List Nat)))
    (hok : ∀ a ∈ arrs, a.Ok (List.replicate q .struct)) (hcells : arrs.flatMap Arr.cells ≠ [])
    (hrows : (arrs.flatMap Arr.cells).length < 2 ^ 64)
    (hv : ∀ v ∈ arrs.flatMap Arr.leaves, v.length = bpv ∧ ∀ b ∈ v, b < 256) :
    ∃ x, storeColumn (fixedCodec bpv) (List.replicate q .struct) arrs = some x ∧
      ∀ (ranges : List (Nat × Nat)) (batches : List Nat), RangesOk (arrs.flatMap Arr.cells).length 0 ranges →
        BatchesOk (selected (arrs.flatMap Arr.cells) ranges).length batches →
        ∃ out, loadColumn (List.replicate q .struct) x ranges batches = some out ∧
          out.map Arr.cells = inBatches batches (selected (arrs.flatMap Arr.cells) ranges) := by
  refine flat_column (fixedCodec bpv) q hq arrs hok hcells hrows ?_
  intro r hr hd hvals
  have hne : valsOf r.rows.flatten ≠ [] := by
    rw [hvals]
    intro h
    apply hcells
    apply List.eq_nil_of_length_eq_zero
    rw [List.length_flatMap, show arrs.map (fun a => a.cells.length) = arrs.map (fun a => a.leaves.length) from
      List.map_congr_left (fun a ha => by rw [cells_length q a (hok a ha), leaves_length q a (hok a ha)]), ← List.length_flatMap, h]
    rfl
  have := C87_flat_fixed_width_round_trip bpv hb r hr hd (by rw [hvals]; exact hv) hne
  rw [hvals] at this
  exact this

/-- **C89** for strings in any number of structs, without lists, stored as they are. -/
theorem C89_flat_strings_round_trip (q : Nat) (hq : q + 1 < 65536) (arrs : List (Arr (List Nat)))
    (hok : ∀ a ∈ arrs, a.Ok (List.replicate q .struct)) (hcells : arrs.flatMap Arr.cells ≠ [])
    (hn : (arrs.flatMap Arr.cells).length + 1 < 2 ^ 28) (ht : (arrs.flatMap Arr.leaves).flatten.length < 2 ^ 31)
    (hs : ∀ s ∈ arrs.flatMap Arr.leaves, s.length ≤ 2042) :
    ∃ x, storeColumn (fun _ => binaryCodec) (List.replicate q .struct) arrs = some x ∧
      ∀ (ranges : List (Nat × Nat)) (batches : List Nat), RangesOk (arrs.flatMap Arr.cells).length 0 ranges →
        BatchesOk (selected (arrs.flatMap Arr.cells) ranges).length batches →
        ∃ out, loadColumn (List.replicate q .struct) x ranges batches = some out ∧
          out.map Arr.cells = inBatches batches (selected (arrs.flatMap Arr.cells) ranges) := by
  have hl : (arrs.flatMap Arr.leaves).length = (arrs.flatMap Arr.cells).length := by
    rw [List.length_flatMap, List.length_flatMap, show arrs.map (fun a => a.cells.length) = arrs.map (fun a => a.leaves.length) from
      List.map_congr_left (fun a ha => by rw [cells_length q a (hok a ha), leaves_length q a (hok a ha)])]
  refine flat_column (fun _ => binaryCodec) q hq arrs hok hcells (by omega) ?_
  intro r hr hd hvals
  exact C86_flat_strings_round_trip r hr hd (by
    rw [hvals]
    intro h
    rw [h] at hl
    exact hcells (List.eq_nil_of_length_eq_zero hl.symm)) (by rw [hvals, hl]; exact hn) (by rw [hvals]; exact ht) (by rw [hvals]; exact hs)

/-! ### Columns of lists -/

/-- The longest list whose row a range may follow: none of the chunks (but the last) has fewer values. -/
def ShortLists {V : Type} (p : Nat) (chunks : List Chunk) (cells : List (Val V)) : Prop :=
  ∀ c ∈ cells, ∀ xs, c.listAt p = some xs → ∀ k (hk : k < chunks.length), k + 1 < chunks.length → xs.length ≤ 2 ^ (chunks[k]).logNumValues

/-- **C89** for one layer of lists, what can be proved with any codec that gives its values back.  What is missing of the claim: the page
is one that the writer managed to write, it is a page that C88 is proved for, and no list has more elements than
there are values in a chunk. -/
theorem C89_lists_round_trip_partial {V : Type} (codecOf : List V → Codec V) (Q : V → Prop) (hc : ∀ vals, CodecOk (codecOf vals) Q)
    (p q : Nat) (hq : q + 3 < 65536) (arrs : List (Arr V))
    (hok : ∀ a ∈ arrs, a.Ok (List.replicate p .struct ++ .list :: List.replicate q .struct)) (hl : ListPage p (q + 1) arrs)
    (hrows : (arrs.flatMap Arr.cells).length < 2 ^ 64) (rd : RepDefs) (vals : List V)
    (henc : encode (List.replicate p .struct ++ .list :: List.replicate q .struct) arrs = some (rd, vals)) (hQ : ∀ v ∈ vals, Q v)
    (c : Compressed) (hcomp : (codecOf vals).compress vals = some c) (hshort : ShortLists p c.chunks (arrs.flatMap Arr.cells))
    (x : Codec V × Page) (hx : storeColumn codecOf (List.replicate p .struct ++ .list :: List.replicate q .struct) arrs = some x)
    (ranges : List (Nat × Nat)) (batches : List Nat) (hr : RangesOk (arrs.flatMap Arr.cells).length 0 ranges)
    (hb : BatchesOk (selected (arrs.flatMap Arr.cells) ranges).length batches) :
    ∃ out, loadColumn (List.replicate p .struct ++ .list :: List.replicate q .struct) x ranges batches = some out ∧
      out.map Arr.cells = inBatches batches (selected (arrs.flatMap Arr.cells) ranges) := by
  obtain ⟨inner, outer, P, e1, e2, e3, e4, e5, _⟩ := encode_list_part p q arrs hok hl
  rw [e1] at henc
  simp only [Option.some.injEq, Prod.mk.injEq] at henc
  obtain ⟨hrd, hvals⟩ := henc
  subst hrd
  have hlen : P.rows.length = (arrs.flatMap Arr.cells).length := by rw [e3, List.length_map]
  have hne : P.rows ≠ [] := by
    obtain ⟨cl, hcl, _⟩ := hl.element
    intro h
    rw [e3, h] at hcl
    simp at hcl
  obtain ⟨hro, hfl⟩ := list_rowsOk inner outer P e2 hne (by omega) (by rw [hlen]; exact hrows)
  have hslots : valsOf (P.slotRows inner outer).rows.flatten = vals := by
    rw [← hvals]; exact (listSlots_flatten (P.nl inner) (P.el inner) P.rows).2.2
  unfold storeColumn at hx
  rw [e1, hvals] at hx
  simp only [Option.map_eq_some_iff] at hx
  obtain ⟨pg, hw, hx⟩ := hx
  subst hx
  have hwr : write (codecOf vals) (P.slotRows inner outer) = some pg := by
    unfold write
    rw [list_repDefs inner outer P e2, hslots]
    exact hw
  have hrl : (P.slotRows inner outer).rows.length = P.rows.length := by simp [Part.slotRows]
  have hsel : selected (P.slotRows inner outer).rows ranges = (selected P.rows ranges).map (listSlots (P.nl inner) (P.el inner)) :=
    selected_map _ _ _
  have hsc : selected (arrs.flatMap Arr.cells) ranges = (selected P.rows ranges).map (fun r => wrap p (rowOf inner r)) := by
    rw [e3, selected_map]
  have hrdp := page_ok (codecOf vals) Q (hc vals) (P.slotRows inner outer) hro hfl (by rw [hslots]; exact hQ) c (by rw [hslots]; exact hcomp) pg hwr
    ranges batches (by rw [hrl, hlen]; exact hr) (by
      intro y hy hy0 k
      apply not_fills
      intro hk hk1
      rw [List.getD_eq_getElem?_getD]
      simp only [Part.slotRows, List.getElem?_map]
      cases hrow : P.rows[y.1 - 1]? with
      | none => simp [valsOf]
      | some r =>
        have hmem : r ∈ P.rows := List.mem_of_getElem? hrow
        have hcm : wrap p (rowOf inner r) ∈ arrs.flatMap Arr.cells := by rw [e3]; exact List.mem_map_of_mem hmem
        have hv := (listSlots_flatten (P.nl inner) (P.el inner) [r]).2.2
        simp only [List.map_cons, List.map_nil, List.flatten_cons, List.flatten_nil, List.append_nil, flat, List.flatMap_cons, List.flatMap_nil] at hv
        simp only [Option.map_some, Option.getD_some]
        rw [hv, List.length_map]
        cases r with
        | none => simp [rowVals]
        | some l =>
          have := hshort _ hcm (l.map (levelCell inner)) (by rw [rowOf, listAt_wrap]; rfl) k hk hk1
          simpa [rowVals] using this)
    (by rw [hsel, List.length_map]; rw [hsc, List.length_map] at hb; exact hb)
  have hlay : pg.layers = inner ++ listLayer P.nulls P.empties :: outer := writePage_layers _ _ _ pg hw
  rw [hsel, inBatches_map, List.map_map] at hrdp
  unfold loadColumn
  simp only
  rw [hrdp]
  simp only
  rw [hlay, List.mapM_map]
  obtain ⟨out, m1, m2, m3⟩ := mapM_exists
    (fun batch : List (Option (List (Nat × V))) => decodePages (List.replicate p .struct ++ .list :: List.replicate q .struct)
        [(⟨(expected (P.slotRows inner outer) (batch.map (listSlots (P.nl inner) (P.el inner)))).rep,
          (expected (P.slotRows inner outer) (batch.map (listSlots (P.nl inner) (P.el inner)))).defs, inner ++ listLayer P.nulls P.empties :: outer⟩,
          (expected (P.slotRows inner outer) (batch.map (listSlots (P.nl inner) (P.el inner)))).data)])
    (fun batch arr => arr.cells = batch.map (fun r => wrap p (rowOf inner r))) (inBatches batches (selected P.rows ranges)) (by
      intro batch hbt
      exact list_batch inner outer p q e4 e5 P e2 batch (fun e he => mem_selected _ _ _ (mem_inBatches _ _ _ hbt e he)))
  refine ⟨out, m1, ?_⟩
  rw [hsc, inBatches_map]
  exact map_of_zip _ _ _ _ m2 m3

theorem bitpack_chunk_sizes (bpv : Nat) (vals : List (List Nat)) (c : Compressed) (h : (bitpackCodec bpv).compress vals = some c) :
    ∀ k (hk : k < c.chunks.length), k + 1 < c.chunks.length → (c.chunks[k]).logNumValues = 10 := by
  simp only [bitpackCodec, bitpackCompress] at h
  split at h
  · simp only [Option.map_eq_some_iff] at h
    obtain ⟨ps, _, hc⟩ := h
    subst hc
    intro k hk hk1
    simp only at hk hk1 ⊢
    have hl := packInfo_length bpv ps
    rw [packInfo_get bpv ps k hk (by omega)]
    rw [if_neg (by omega)]
  · simp at h

/-- **C89** for lists of integers (of 1, 2, 4 or 8 bytes), what can be proved: if no list is null or empty, none has more than 1024
elements, and no 1024 values in a row are zero, pages are written without a panic, and any ranges of rows, read in any batches, are arrays
with the cells of these rows.  Elements may be null (with the restriction of C88), and lists and elements may be in structs. -/
theorem C89_integer_lists_partial (bpv : Nat) (hb : bpv = 1 ∨ bpv = 2 ∨ bpv = 4 ∨ bpv = 8) (p q : Nat) (hq : q + 3 < 65536)
    (arrs : List (Arr (List Nat))) (hok : ∀ a ∈ arrs, a.Ok (List.replicate p .struct ++ .list :: List.replicate q .struct))
    (hl : ListPage p (q + 1) arrs) (hrows : (arrs.flatMap Arr.cells).length < 2 ^ 64)
    (hfull : ∀ c ∈ arrs.flatMap Arr.cells, ∃ x xs, c.listAt p = some (x :: xs) ∧ xs.length < 1024)
    (rd : RepDefs) (vals : List (List Nat))
    (henc : encode (List.replicate p .struct ++ .list :: List.replicate q .struct) arrs = some (rd, vals))
    (hv : ∀ v ∈ vals, v.length = bpv ∧ ∀ b ∈ v, b < 256)
    (hz : ∀ chunk ∈ chunks1024 vals.length (vals.map ofLe), bitWidth chunk ≠ 0) :
    ∃ x, storeColumn (fixedCodec bpv) (List.replicate p .struct ++ .list :: List.replicate q .struct) arrs = some x ∧
      ∀ (ranges : List (Nat × Nat)) (batches : List Nat), RangesOk (arrs.flatMap Arr.cells).length 0 ranges →
        BatchesOk (selected (arrs.flatMap Arr.cells) ranges).length batches →
        ∃ out, loadColumn (List.replicate p .struct ++ .list :: List.replicate q .struct) x ranges batches = some out ∧
          out.map Arr.cells = inBatches batches (selected (arrs.flatMap Arr.cells) ranges) := by
  have henc0 := henc
  obtain ⟨inner, outer, P, e1, e2, e3, e4, e5, _⟩ := encode_list_part p q arrs hok hl
  rw [e1] at henc
  simp only [Option.some.injEq, Prod.mk.injEq] at henc
  obtain ⟨hrd, hvals⟩ := henc
  have hlen : P.rows.length = (arrs.flatMap Arr.cells).length := by rw [e3, List.length_map]
  have hne : P.rows ≠ [] := by
    obtain ⟨cl, hcl, _⟩ := hl.element
    intro h
    rw [e3, h] at hcl
    simp at hcl
  have hrow : ∀ r ∈ P.rows, ∃ e xs, r = some (e :: xs) := by
    intro r hr
    obtain ⟨x, xs, hx, _⟩ := hfull _ (by rw [e3]; exact List.mem_map_of_mem hr)
    rw [rowOf, listAt_wrap] at hx
    cases r with
    | none => simp at hx
    | some l =>
      cases l with
      | nil => simp at hx
      | cons e xs => exact ⟨e, xs, rfl⟩
  obtain ⟨hro, _⟩ := list_rowsOk inner outer P e2 hne (by omega) (by rw [hlen]; exact hrows)
  have hslots : valsOf (P.slotRows inner outer).rows.flatten = vals := by
    rw [← hvals]; exact (listSlots_flatten (P.nl inner) (P.el inner) P.rows).2.2
  have hvne : vals ≠ [] := by
    rw [← hvals]
    cases hp : P.rows with
    | nil => exact absurd hp hne
    | cons r rs =>
      obtain ⟨e, xs, hr⟩ := hrow r (by rw [hp]; simp)
      rw [hr, flat_some]
      simp
  obtain ⟨pg, c, hw, hcomp, _⟩ := C87_integer_lists_partial bpv hb (P.slotRows inner outer) hro (by
      intro row hrw s hs
      obtain ⟨r, hr, rfl⟩ := List.mem_map.mp hrw
      obtain ⟨e, xs, he⟩ := hrow r hr
      subst he
      simp only [listSlots, List.mem_cons, List.mem_map] at hs
      rcases hs with hs | ⟨y, _, hs⟩ <;> subst hs <;> rfl)
    (by rw [hslots]; exact hv) (by rw [hslots]; exact hvne) (by rw [hslots]; exact hz)
  rw [hslots] at hw hcomp
  have hfix : fixedCodec bpv vals = bitpackCodec bpv := by unfold fixedCodec; rw [if_pos ⟨hb, hz⟩]
  have hst : storeColumn (fixedCodec bpv) (List.replicate p .struct ++ .list :: List.replicate q .struct) arrs = some (fixedCodec bpv vals, pg) := by
    unfold storeColumn
    rw [e1, hvals]
    simp only
    unfold write at hw
    rw [list_repDefs inner outer P e2, hslots] at hw
    rw [hw]; rfl
  refine ⟨_, hst, ?_⟩
  intro ranges batches hr hbt
  refine C89_lists_round_trip_partial (fixedCodec bpv) (fun v => v.length = bpv ∧ ∀ b ∈ v, b < 256) (C87_fixed_codecs bpv).2 p q hq arrs hok hl hrows
    rd vals henc0 hv c (by rw [hfix]; exact hcomp) ?_ _ hst ranges batches hr hbt
  intro cl hcl xs hxs k hk hk1
  rw [bitpack_chunk_sizes bpv vals c hcomp k hk hk1]
  obtain ⟨y, ys, hy, hys⟩ := hfull cl hcl
  rw [hy] at hxs
  simp only [Option.some.injEq] at hxs
  rw [← hxs, List.length_cons]
  omega

/-! ### Where the claim fails -/

/-- What is stored for the arrays of a page, and read from it. -/
def storeAndLoad (bpv : Nat) (ks : List Kind) (arrs : List (Arr (List Nat))) (ranges : List (Nat × Nat)) (batches : List Nat) :
    Option (List (Arr (List Nat))) :=
  (storeColumn (fixedCodec bpv) ks arrs).bind fun x => loadColumn ks x ranges batches

/-- `[[null, 1], [2]]`, a page of one byte integers, read as a whole. -/
def nullFirst : List (Arr (List Nat)) := [.list [0, 2, 3] (.prim [[0], [1], [2]] (some [false, true, true])) none]

/-- **C89**, violated: the page of `[[null, 1], [2]]` is read as one list. -/
theorem C89_list_starting_with_null :
    storeAndLoad 1 [.list] nullFirst [(0, 2)] [2] =
      some [.list [1, 2] (.prim [[0], [1], [2]] (some [false, true, true])) none] := by
  decide +kernel

/-- **C89** as it stands does not hold. -/
theorem C89_columns_round_trip_violated : ¬ C89_columns_round_trip_statement := by
  intro h
  obtain ⟨x, out, h1, h2, h3⟩ := h 1 [.list] nullFirst [(0, 2)] [2] (by omega) (by omega)
    ⟨by simp, by
      intro p hp a ha
      simp only [List.mem_singleton, nullFirst] at hp
      subst hp
      simp only [List.mem_singleton] at ha
      subst ha
      exact ⟨by intro bs h; simp at h; subst h; rfl, by intro bs h; simp at h, by simp, by simp [Rising], by decide⟩,
    by simp [nullFirst, Arr.cells, mask, slices]⟩
    (by decide) ⟨_, List.mem_singleton.mpr rfl, by decide⟩ ⟨by omega, by omega, by simp [nullFirst, Arr.cells, mask, slices], trivial⟩
    ⟨by decide, by simp [nullFirst, Arr.cells, mask, slices, selected]⟩
  have hr := C89_list_starting_with_null
  unfold storeAndLoad at hr
  rw [h1, Option.bind_some, h2] at hr
  simp only [Option.some.injEq] at hr
  rw [hr] at h3
  have := congrArg (List.map List.length) h3
  simp [nullFirst, Arr.cells, mask, slices, selected, inBatches] at this

/-! ### Cases that meet the hypotheses -/

/-- A page of two arrays of structs of nullable 16 bit integers; three of the rows are read, in two batches. -/
def shortStructs : List (Arr (List Nat)) :=
  [.struct (.prim [[1, 0], [0, 2], [3, 3]] (some [true, false, true])) (some [true, true, false]), .struct (.prim [[4, 1]] none) none]

theorem C89_flat_nonvacuous : (∀ a ∈ shortStructs, a.Ok (List.replicate 1 .struct)) ∧ shortStructs.flatMap Arr.cells ≠ [] ∧
    (∀ v ∈ shortStructs.flatMap Arr.leaves, v.length = 2 ∧ ∀ b ∈ v, b < 256) ∧
    RangesOk (shortStructs.flatMap Arr.cells).length 0 [(0, 1), (2, 4)] ∧
    BatchesOk (selected (shortStructs.flatMap Arr.cells) [(0, 1), (2, 4)]).length [2, 1] ∧
    storeAndLoad 2 [.struct] shortStructs [(0, 1), (2, 4)] [2, 1] =
      some [.struct (.prim [[1, 0], [3, 3]] (some [true, false])) (some [true, false]), .struct (.prim [[4, 1]] (some [true])) (some [true])] := by
  have hc : (shortStructs.flatMap Arr.cells).length = 4 := by simp [shortStructs, Arr.cells, mask]
  refine ⟨?_, ?_, by decide, ⟨by omega, by omega, by omega, by omega, by omega, by omega, trivial⟩, ⟨by decide, ?_⟩, by decide +kernel⟩
  · intro a ha
    simp only [shortStructs, List.mem_cons, List.not_mem_nil, or_false] at ha
    rcases ha with rfl | rfl
    · exact ⟨by intro bs h; simp at h; subst h; rfl, by intro bs h; simp at h; subst h; rfl⟩
    · exact ⟨by intro bs h; simp at h, by intro bs h; simp at h⟩
  · intro h; rw [h] at hc; simp at hc
  · simp [selected, hc]

/-- A page of lists of one byte integers, one of which starts with a null element; the lists have a bitmap. -/
def byteLists : List (Arr (List Nat)) :=
  [.list [1, 3, 4] (.prim [[9], [0], [1], [2]] (some [true, false, true, true])) (some [true, true])]

theorem C89_lists_nonvacuous : (∀ a ∈ byteLists, a.Ok [.list]) ∧ ListPage 0 1 byteLists ∧
    (∀ c ∈ byteLists.flatMap Arr.cells, ∃ x xs, c.listAt 0 = some (x :: xs) ∧ xs.length < 1024) ∧
    (∃ rd, encode [.list] byteLists = some (rd, [[0], [1], [2]])) ∧
    (∀ chunk ∈ chunks1024 3 ([[0], [1], [2]].map ofLe), bitWidth chunk ≠ 0) ∧
    RangesOk (byteLists.flatMap Arr.cells).length 0 [(0, 2)] ∧ BatchesOk (selected (byteLists.flatMap Arr.cells) [(0, 2)]).length [1, 1] ∧
    storeAndLoad 1 [.list] byteLists [(0, 2)] [1, 1] =
      some [.list [0, 2] (.prim [[0], [1]] (some [false, true])) (some [true]), .list [0, 1] (.prim [[2]] (some [true])) (some [true])] := by
  have hc : byteLists.flatMap Arr.cells = [.valid (.list [.null, .valid (.item [1])]), .valid (.list [.valid (.item [2])])] := by
    simp [byteLists, Arr.cells, mask, slices]
  refine ⟨?_, ⟨fun c _ => rfl, ?_, Or.inl (by decide)⟩, ?_, ⟨_, rfl⟩, by decide, ⟨by omega, by omega, by rw [hc]; decide, trivial⟩,
    ⟨by decide, by rw [hc]; decide⟩, by decide +kernel⟩
  · intro a ha
    simp only [byteLists, List.mem_singleton] at ha
    subst ha
    exact ⟨by intro bs h; simp at h; subst h; rfl, by intro bs h; simp at h; subst h; rfl, by simp, by simp [Rising], by decide⟩
  · rw [hc]; exact ⟨_, List.mem_cons_self .., _, _, rfl⟩
  · rw [hc]
    intro c hm
    simp only [List.mem_cons, List.not_mem_nil, or_false] at hm
    rcases hm with rfl | rfl
    · exact ⟨_, _, rfl, by decide⟩
    · exact ⟨_, _, rfl, by decide⟩

end Verif.RepDef
