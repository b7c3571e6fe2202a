import Verif.RepDef.LemmasFslDec
import Verif.RepDef.PropsRepDef
/-!
# C88 for columns of fixed size lists (vectors)
-/
namespace Verif.RepDef
open Verif.Mini (Layer RepDefs)

theorem bitmaps_rows {V : Type} : ∀ (ks : List Kind), NoLists ks → ∀ a : Arr V, a.Ok ks → a.bitmaps.length = ks.length + 1
  | [], _, a, h => by cases a <;> simp only [Arr.Ok] at h; rfl
  | k :: ks, hn, a, h => by
    obtain ⟨h1, _, _, h4, _⟩ := ok_cons k (hn k (by simp)) ks a h
    rw [h4, List.length_append, bitmaps_rows ks (fun x hx => hn x (by simp [hx])) _ h1]
    rfl

theorem tops_isSome {V : Type} (arrs : List (Arr V)) : (tops arrs).isSome = arrs.any fun a => a.top.isSome := by
  unfold tops joinBits
  rw [List.any_map]
  rw [show ((fun x : Option (List Bool) × Nat => x.1.isSome) ∘ fun a : Arr V => (a.top, a.len)) = fun a => a.top.isSome from rfl]
  cases h : (arrs.any fun a => a.top.isSome) <;> simp

/-- The layers of a page are nullable where an array has a bitmap. -/
theorem jointLayers_eq {V : Type} : ∀ (ks : List Kind), NoLists ks → ∀ arrs : List (Arr V), (∀ a ∈ arrs, a.Ok ks) → jointLayers ks arrs = flatLayers ks.length arrs
  | [], _, arrs, h => by
    simp only [jointLayers, jointBits, flatLayers, List.length_nil, List.map_cons, List.map_nil, bitLayer, tops_isSome, List.range_succ, List.range_zero,
      List.nil_append]
    congr 1
    have : (arrs.any fun a => a.top.isSome) = hasBitmap arrs 0 := by
      unfold hasBitmap
      rw [Bool.eq_iff_iff, List.any_eq_true, List.any_eq_true]
      constructor
      · rintro ⟨a, ha, hx⟩
        refine ⟨a, ha, ?_⟩
        have := h a ha
        cases a <;> simp only [Arr.Ok] at this
        exact hx
      · rintro ⟨a, ha, hx⟩
        refine ⟨a, ha, ?_⟩
        have := h a ha
        cases a <;> simp only [Arr.Ok] at this
        exact hx
    rw [this]
  | k :: ks, hn, arrs, h => by
    have hn' : NoLists ks := fun x hx => hn x (by simp [hx])
    have hf := fun a ha => ok_cons k (hn k (by simp)) ks a (h a ha)
    have hc : ∀ c ∈ arrs.map Arr.child, c.Ok ks := by
      intro c hc
      obtain ⟨a, ha, rfl⟩ := List.mem_map.mp hc
      exact (hf a ha).1
    have ih := jointLayers_eq ks hn' (arrs.map Arr.child) hc
    unfold jointLayers at ih ⊢
    rw [jointBits, List.map_append, ih, List.map_cons, List.map_nil, bitLayer_spread]
    unfold flatLayers
    rw [List.length_cons, List.range_succ (n := ks.length + 1), List.map_append, List.map_cons, List.map_nil]
    have hany : ∀ (j : Nat) (f : Arr V → Bool), (∀ a ∈ arrs, f a = ((a.bitmaps[j]?).join).isSome) → arrs.any f = hasBitmap arrs j := by
      intro j f hfa
      unfold hasBitmap
      rw [Bool.eq_iff_iff, List.any_eq_true, List.any_eq_true]
      constructor
      · rintro ⟨a, ha, hx⟩; exact ⟨a, ha, by rw [← hfa a ha]; exact hx⟩
      · rintro ⟨a, ha, hx⟩; exact ⟨a, ha, by rw [hfa a ha]; exact hx⟩
    congr 1
    · apply List.map_congr_left
      intro j hj
      have hj := List.mem_range.mp hj
      have : hasBitmap (arrs.map Arr.child) j = hasBitmap arrs j := by
        have h0 : hasBitmap (arrs.map Arr.child) j = arrs.any fun a => ((a.child.bitmaps[j]?).join).isSome := by
          unfold hasBitmap; rw [List.any_map]; rfl
        rw [h0]
        apply hany
        intro a ha
        obtain ⟨h1, _, _, h4, _⟩ := hf a ha
        rw [h4, List.getElem?_append_left (by rw [bitmaps_rows ks hn' _ h1]; exact hj)]
      rw [this]
    · congr 1
      unfold bitLayer
      rw [tops_isSome, hany (ks.length + 1) (fun a => a.top.isSome) (by
        intro a ha
        obtain ⟨h1, _, _, h4, _⟩ := hf a ha
        have := bitmaps_rows ks hn' _ h1
        rw [h4, List.getElem?_append_right (by omega), this]
        simp)]

/-- A page of a column without lists: its levels and values, and what its cells are. -/
theorem encode_rows_part {V : Type} (ks : List Kind) (hn : NoLists ks) (arrs : List (Arr V)) (hok : ∀ a ∈ arrs, a.Ok ks)
    (hcells : arrs.flatMap Arr.cells ≠ []) :
    ∃ P : FlatPart V, encode ks arrs = some (P.page (flatLayers ks.length arrs), P.items.map (·.2)) ∧ FlatOk (flatLayers ks.length arrs) P ∧
      P.items.length = (arrs.map Arr.len).sum * width ks ∧ 0 < width ks ∧
      arrs.flatMap Arr.cells = (groups (width ks) (arrs.map Arr.len).sum P.items).map (rowVal ks (flatLayers ks.length arrs)) ∧
      P.items.map (·.2) = arrs.flatMap Arr.leaves ∧ P.items.map (·.1) = jointLevels ks arrs ∧ P.w = (jointBits ks arrs).any Option.isSome := by
  have hne : arrs ≠ [] := by intro h; rw [h] at hcells; exact hcells rfl
  have hsum : (arrs.flatMap Arr.cells).length = (arrs.map Arr.len).sum := by
    rw [List.length_flatMap]; congr 1; exact List.map_congr_left fun a ha => (len_cells ks hn a (hok a ha)).1
  have hlv := leaves_page ks hn arrs hok
  have he := encode_rows ks hn arrs hne hok (by rw [← hsum]; exact List.length_pos_iff.mpr hcells)
  have hc := cells_rows ks hn arrs hne hok
  have hle := markAll_le (jointBits ks arrs) ((arrs.map Arr.len).sum * width ks)
  have hnull : Layer.nullableItem ∈ jointLayers ks arrs → (jointBits ks arrs).any Option.isSome = true := (nullable_mem _).mp
  have hlay : ∀ l ∈ jointLayers ks arrs, isItem l := by
    intro l hl
    obtain ⟨b, _, rfl⟩ := List.mem_map.mp hl
    exact bitLayer_item b
  have hM : 0 < width ks := by
    cases arrs with
    | nil => exact absurd rfl hne
    | cons a arrs => exact width_pos ks hn ⟨a, hok a (by simp)⟩
  have hmk : (jointLevels ks arrs).length = (arrs.map Arr.len).sum * width ks := by
    unfold jointLevels; rw [markAll_length, List.length_replicate]
  rw [show (jointBits ks arrs).map bitLayer = jointLayers ks arrs from rfl] at hle
  rw [jointLayers_eq ks hn arrs hok] at he hc hle hnull hlay
  refine ⟨⟨(jointBits ks arrs).any Option.isSome, (jointLevels ks arrs).zip (arrs.flatMap Arr.leaves)⟩, ?_, ⟨hlay, ?_, hnull⟩, ?_, hM, hc, ?_, ?_, rfl⟩
  · rw [he]
    simp only [FlatPart.page]
    rw [List.map_fst_zip (by rw [hmk, hlv]; exact Nat.le_refl _), List.map_snd_zip (by rw [hmk, hlv]; exact Nat.le_refl _)]
  · intro e hm
    exact hle e.1 (List.of_mem_zip hm).1
  · simp only [List.length_zip, hmk, hlv, Nat.min_self]
  · exact List.map_snd_zip (by rw [hmk, hlv]; exact Nat.le_refl _)
  · exact List.map_fst_zip (by rw [hmk, hlv]; exact Nat.le_refl _)

/-- **C88** for columns without lists, that is, of values in any nesting of structs and fixed size lists (vectors), what can be proved: if each
layer has a bitmap in all pages or in none.  What is missing of the claim for these columns is exactly this: see `C88_pages_with_and_without_nulls`
and `C88_struct_nulls_between_pages`. -/
theorem C88_vectors_round_trip_partial {V : Type} (ks : List Kind) (hn : ∀ k ∈ ks, k ≠ .list) (pages : List (List (Arr V))) (h : PagesOk ks pages)
    (hagree : ∀ a ∈ pages, ∀ b ∈ pages, ∀ j, j ≤ ks.length → hasBitmap a j = hasBitmap b j) :
    ∃ rps arr, pages.mapM (encode ks) = some rps ∧ decodePages ks rps = some arr ∧
      arr.cells = pages.flatMap fun page => page.flatMap Arr.cells := by
  obtain ⟨p0, hp0⟩ : ∃ p0, p0 ∈ pages := by
    cases pages with
    | nil => exact absurd rfl h.some
    | cons a _ => exact ⟨a, by simp⟩
  have hlay : ∀ a ∈ pages, flatLayers ks.length a = flatLayers ks.length p0 := by
    intro a ha
    unfold flatLayers
    apply List.map_congr_left
    intro j hj
    rw [List.mem_range] at hj
    rw [hagree a ha p0 hp0 j (by omega)]
  have hM : 0 < width ks := by
    obtain ⟨_, _, _, _, hM, _⟩ := encode_rows_part ks hn p0 (h.ok p0 hp0) (h.rows p0 hp0)
    exact hM
  generalize hin : flatLayers ks.length p0 = inner at hlay
  have hil : inner.length = ks.length + 1 := by rw [← hin]; simp [flatLayers]
  obtain ⟨parts, h1, h2, h3⟩ := parts_of (encode ks)
    (fun (a : List (Arr V)) (P : FlatPart V) => FlatOk inner P ∧ P.items.length = (a.map Arr.len).sum * width ks ∧
      a.flatMap Arr.cells = (groups (width ks) (a.map Arr.len).sum P.items).map (rowVal ks inner))
    (fun P : FlatPart V => (P.page inner, P.items.map (·.2))) pages (by
      intro a ha
      obtain ⟨P, e1, e2, e3, _, e5, _⟩ := encode_rows_part ks hn a (h.ok a ha) (h.rows a ha)
      rw [hlay a ha] at e1 e2 e5
      exact ⟨P, e1, e2, e3, e5⟩)
  have hok : ∀ P ∈ parts, FlatOk inner P ∧ P.items.length % width ks = 0 := by
    intro P hP
    obtain ⟨a, ha⟩ := of_mem_zip_right pages parts h2 P hP
    refine ⟨(h3 _ ha).1, ?_⟩
    rw [(h3 _ ha).2.1]
    exact Nat.mul_mod_left _ _
  obtain ⟨arr, d1, d2, _, d4⟩ := decode_rows inner parts (by
    intro hn; rw [hn] at h2; exact h.some (List.length_eq_zero_iff.mp h2.symm)) (fun P hP => (hok P hP).1) ks hn hM (by omega) (fun P hP => (hok P hP).2)
  refine ⟨_, arr, h1, ?_, ?_⟩
  · unfold decodePages
    rw [List.map_map, show ((fun p : RepDefs × List V => Unraveler.new p.1) ∘ fun P : FlatPart V => (P.page inner, P.items.map (·.2))) =
      fun P => Unraveler.new (P.page inner) from rfl, List.flatMap_map, ← List.map_flatMap, d1]
    rfl
  · rw [d4]
    have hz := flatMap_zip (fun page : List (Arr V) => page.flatMap Arr.cells)
      (fun P : FlatPart V => (groups (width ks) (P.items.length / width ks) P.items).map (rowVal ks inner)) pages parts h2 (by
        intro x hx
        obtain ⟨_, g2, g3⟩ := h3 x hx
        rw [g3, g2, Nat.mul_div_cancel _ hM])
    rw [hz, ← List.map_flatMap]
    congr 1
    clear d1 d2 d4 h1 h2 h3 hz
    induction parts with
    | nil => simp [groups]
    | cons P parts ih =>
      have ih := ih (fun x hx => hok x (by simp [hx]))
      have hx : P.items.length = P.items.length / width ks * width ks := (Nat.div_mul_cancel (Nat.dvd_of_mod_eq_zero (hok P (by simp)).2)).symm
      rw [List.flatMap_cons, List.flatMap_cons, ← ih]
      have hd : (P.items ++ parts.flatMap FlatPart.items).length / width ks = P.items.length / width ks + (parts.flatMap FlatPart.items).length / width ks := by
        rw [List.length_append]
        conv => lhs; rw [hx, Nat.add_comm]
        rw [Nat.add_mul_div_right _ _ hM, Nat.add_comm]
      rw [hd, groups_append _ _ _ _ _ hx]

/-- **C88** for a column without lists that is read from one page: the claim holds as it stands. -/
theorem C88_vector_page_round_trip {V : Type} (ks : List Kind) (hn : ∀ k ∈ ks, k ≠ .list) (page : List (Arr V)) (h : PagesOk ks [page]) :
    ∃ rp arr, encode ks page = some rp ∧ decodePages ks [rp] = some arr ∧ arr.cells = page.flatMap Arr.cells := by
  obtain ⟨rps, arr, h1, h2, h3⟩ := C88_vectors_round_trip_partial ks hn [page] h (by
    intro a ha b hb j _
    rw [List.mem_singleton] at ha hb
    rw [ha, hb])
  rw [List.mapM_cons, List.mapM_nil] at h1
  cases he : encode ks page with
  | none => rw [he] at h1; simp at h1
  | some rp =>
    rw [he] at h1
    simp only [Option.pure_def, Option.bind_eq_bind, Option.bind_some, Option.some.injEq] at h1
    subst h1
    exact ⟨rp, arr, rfl, h2, by simpa using h3⟩

/-- Vectors of two nullable values in structs, in two arrays of one page: a null element, a null vector over values, a null struct, and an array
without bitmaps. -/
def vectorArrays : List (Arr Nat) :=
  [.struct (.fsl 2 (.prim [1, 2, 3, 4, 5, 6, 7, 8] (some [true, false, true, true, false, true, true, true])) (some [true, false, true, true]))
     (some [true, true, false, true]),
   .struct (.fsl 2 (.prim [9, 10] none) none) none]

theorem vectorArrays_ok : PagesOk [.struct, .fsl 2] [vectorArrays] := by
  refine ⟨by simp, ?_, by simp [vectorArrays, Arr.cells, mask, groups, Arr.len]⟩
  intro p hp a ha
  simp only [List.mem_singleton] at hp
  subst hp
  simp only [vectorArrays, List.mem_cons, List.not_mem_nil, or_false] at ha
  rcases ha with rfl | rfl
  · exact ⟨⟨by intro bs h; simp at h; subst h; rfl, by intro bs h; simp at h; subst h; rfl, rfl, by decide, rfl⟩, by intro bs h; simp at h; subst h; rfl⟩
  · exact ⟨⟨by intro bs h; simp at h, by intro bs h; simp at h, rfl, by decide, rfl⟩, by intro bs h; simp at h⟩

theorem C88_vectors_nonvacuous : PagesOk [.struct, .fsl 2] [vectorArrays] ∧
    roundTrip [.struct, .fsl 2] [vectorArrays] = some (some (.struct
      (.fsl 2 (.prim [1, 2, 3, 4, 5, 6, 7, 8, 9, 10] (some [true, false, false, false, false, false, true, true, true, true]))
        (some [true, false, false, true, true])) (some [true, true, false, true, true]))) :=
  ⟨vectorArrays_ok, by decide⟩

end Verif.RepDef
