import Verif.Zip.LemmasVectors
import Verif.Zip.PropsZipColumn
/-!
# C91 for columns of vectors
-/
namespace Verif.Zip
open Verif.Mini Verif.RepDef

/-- **C91** for values of a fixed width in any nesting of structs and fixed size lists (vectors, vectors of vectors, vectors in structs), without
other lists: any ranges of rows, in any batches, are read as they were written.  What is missing of the claim: arrays with bitmaps none of which
has a null, and 255 layers or more. -/
theorem C91_vectors_partial (bpv : Nat) (hbpv : 0 < bpv) (ks : List Kind) (hn : ∀ k ∈ ks, k ≠ .list) (hq : ks.length + 1 < 256) (arrs : List (Arr (List Nat)))
    (hok : ∀ a ∈ arrs, a.Ok ks) (hcells : arrs.flatMap Arr.cells ≠ []) (hv : ∀ v ∈ arrs.flatMap Arr.leaves, v.length = bpv)
    (hsize : (arrs.flatMap Arr.leaves).flatten.length + 4 * (arrs.flatMap Arr.leaves).length < 2 ^ 64)
    (hu : Bare arrs ∨ HasNull arrs) :
    ∃ p, storeZip writeFixed ks arrs = some p ∧
      ∀ (ranges : List (Nat × Nat)) (batches : List Nat), RangesOk (arrs.flatMap Arr.cells).length 0 ranges →
        BatchesOk (selected (arrs.flatMap Arr.cells) ranges).length batches →
        ∃ out, loadFixed bpv ks p ranges batches = some out ∧
          out.map Arr.cells = inBatches batches (selected (arrs.flatMap Arr.cells) ranges) := by
  obtain ⟨P, e1, e2, e3, hM, e5, e6, e7, e8⟩ := encode_rows_part ks hn arrs hok hcells
  have hil : (flatLayers ks.length arrs).length = ks.length + 1 := by simp [flatLayers]
  have hw : Bare arrs → P.w = false := by
    intro hb
    rw [e8]
    cases hP : (jointBits ks arrs).any Option.isSome with
    | false => rfl
    | true =>
      have h1 := (nullable_mem (jointBits ks arrs)).mpr hP
      rw [show (jointBits ks arrs).map bitLayer = jointLayers ks arrs from rfl, jointLayers_eq ks hn arrs hok] at h1
      unfold flatLayers at h1
      obtain ⟨j, _, hj⟩ := List.mem_map.mp h1
      split at hj
      · rename_i hbm
        unfold hasBitmap at hbm
        obtain ⟨a, ha, hx⟩ := List.any_eq_true.mp hbm
        cases hja : a.bitmaps[j]? with
        | none => rw [hja] at hx; simp at hx
        | some b => rw [hja, hb a ha b (List.mem_of_getElem? hja)] at hx; simp at hx
      · cases hj
  have hnz : P.w = true → ∃ e ∈ P.items, e.1 ≠ 0 := by
    intro hPw
    rcases hu with hb | hb
    · rw [hw hb] at hPw; cases hPw
    · obtain ⟨x, h1, h2, h3⟩ := jointBits_null ks hn arrs hok hb
      obtain ⟨d, hd, h0⟩ := markAll_marks _ x h2 h3 _ h1
      rw [show markAll (jointBits ks arrs) 1 (List.replicate ((arrs.map Arr.len).sum * width ks) 0) = jointLevels ks arrs from rfl, ← e7] at hd
      obtain ⟨e, he, rfl⟩ := List.mem_map.mp hd
      exact ⟨e, he, h0⟩
  generalize flatLayers ks.length arrs = inner at *
  have hclen : (arrs.flatMap Arr.cells).length = (arrs.map Arr.len).sum := by rw [e5, List.length_map, groups_length]
  have hlv : (arrs.flatMap Arr.leaves).length = (arrs.map Arr.len).sum * width ks := leaves_page ks hn arrs hok
  have hitems : P.items ≠ [] := by
    intro h0
    rw [h0] at e3
    have h1 : 0 < (arrs.flatMap Arr.cells).length := List.length_pos_iff.mpr hcells
    have := Nat.mul_pos (hclen ▸ h1) hM
    simp only [List.length_nil] at e3
    omega
  have hvals : valsOf (P.rows inner).rows.flatten = arrs.flatMap Arr.leaves := by
    rw [show valsOf (P.rows inner).rows.flatten = P.items.map (·.2) from (itemSlots_flatten P.items).2]; exact e6
  have hrl : (P.rows inner).rows.length = P.items.length := by simp [FlatPart.rows]
  obtain ⟨p, hwr, hread⟩ := C90_fixed_width_partial bpv (width ks) (arrs.map Arr.len).sum (P.rows inner) hbpv hM
    (flat_rowsOk inner P e2 hitems (by omega) (by rw [e3, ← hlv]; omega)) (flat_levelsOk inner P e2) (flat_plain inner P e2 (by omega) hnz)
    (by rw [hvals]; exact hv) (by rw [hrl, e3, Nat.mul_comm]) (by
      unfold pageSize
      rw [hvals, show (P.rows inner).rows.flatten.length = P.items.length from itemSlots_length P.items, e3, ← hlv]
      exact hsize)
  refine ⟨p, ?_, ?_⟩
  · unfold storeZip
    rw [e1]
    simp only
    rw [← flat_repDefs inner P e2, e6, ← hvals]
    exact hwr
  · intro ranges batches hr hb
    have hrd := hread ranges batches (by rw [← hclen]; exact hr) (by
      rw [selected_range_length _ (arrs.flatMap Arr.cells) ranges hclen.symm]; exact hb)
    have hge : ∀ g ∈ groups (width ks) (arrs.map Arr.len).sum P.items, g.length = width ks := groups_each _ _ _ e3
    have hgm : ∀ g ∈ groups (width ks) (arrs.map Arr.len).sum P.items, ∀ e ∈ g, e ∈ P.items := groups_mem _ _ _
    have hfl : (groups (width ks) (arrs.map Arr.len).sum P.items).flatten = P.items := flatten_groups _ _ _ e3
    generalize groups (width ks) (arrs.map Arr.len).sum P.items = gs at *
    have hsel : selected (P.rows inner).rows (scaled (width ks) ranges) = ((selected gs ranges).flatten).map itemSlot := by
      rw [selected_flatten (width ks) gs hge, hfl]
      exact selected_map _ _ _
    have hse : ∀ g ∈ selected gs ranges, g.length = width ks := fun g hg => hge g (mem_selected _ _ _ hg)
    rw [hsel, inBatches_map, ← inBatches_flatten (width ks) batches _ hse, List.map_map, List.map_map] at hrd
    have hlay : p.layers = inner := writeFixed_layers _ _ _ p hwr
    unfold loadFixed
    rw [itemsPerRow_width, hrd, hlay, Option.bind_some, e5, selected_map, inBatches_map]
    apply assemble_exists
    intro batch hbt
    have hin := mem_selected_in gs ranges batches batch hbt
    exact vec_batch inner ks hn hM hil P e2 batch (fun g hg => hge g (hin g hg)) (fun g hg => hgm g (hin g hg))

/-- Vectors of two values in structs: a null element, a null vector over values, a null struct, and an array without bitmaps. -/
def someVectors : List (Arr (List Nat)) :=
  [.struct (.fsl 2 (.prim [[1, 0], [2, 0], [3, 0], [4, 0], [5, 0], [6, 0], [7, 0], [8, 0]] (some [true, false, true, true, false, true, true, true]))
     (some [true, false, true, true])) (some [true, true, false, true]),
   .struct (.fsl 2 (.prim [[9, 0], [10, 0]] none) none) none]

/-- The hypotheses of `C91_vectors_partial` are met; two ranges of rows are read in two batches. -/
theorem C91_vectors_nonvacuous : (∀ a ∈ someVectors, a.Ok [.struct, .fsl 2]) ∧ HasNull someVectors ∧
    storeAndLoadFixed 2 [.struct, .fsl 2] someVectors [(0, 2), (3, 5)] [3, 1] =
      some [.struct (.fsl 2 (.prim [[1, 0], [2, 0], [3, 0], [4, 0], [7, 0], [8, 0]] (some [true, false, false, false, true, true]))
          (some [true, false, true])) (some [true, true, true]),
        .struct (.fsl 2 (.prim [[9, 0], [10, 0]] (some [true, true])) (some [true])) (some [true])] := by
  refine ⟨?_, ?_, by decide +kernel⟩
  · intro a ha
    simp only [someVectors, List.mem_cons, List.not_mem_nil, or_false] at ha
    rcases ha with rfl | rfl
    · exact ⟨⟨by intro bs h; simp at h; subst h; rfl, by intro bs h; simp at h; subst h; rfl, rfl, by decide, rfl⟩, by intro bs h; simp at h; subst h; rfl⟩
    · exact ⟨⟨by intro bs h; simp at h, by intro bs h; simp at h, rfl, by decide, rfl⟩, by intro bs h; simp at h⟩
  · exact ⟨_, List.mem_cons_self .., [true, true, false, true], by simp [Arr.bitmaps], by simp⟩

end Verif.Zip
