import Verif.RepDef.LemmasFlat
/-!
# Lemmas on levels: serializing
-/
namespace Verif.RepDef
open Verif.Mini (Layer RepDefs)

theorem getElem?_reverse' {A : Type} (l : List A) (i : Nat) (h : i < l.length) : l.reverse[l.length - 1 - i]? = l[i]? := by
  rw [List.getElem?_reverse (by omega)]
  congr 1
  omega

/-- The layers of some builders put together, the innermost first. -/
theorem combined_all (bs : List Builder) (m : Nat) (hm : ∀ b ∈ bs, b.raws.length = m) (g : Nat → Raw)
    (h : ∀ j, j < m → ∃ ls, bs.mapM (fun b => b.raws.reverse[j]?) = some ls ∧ concatLayers ls = some (g j)) :
    ∃ L, (List.range m).mapM (combined bs) = some L ∧ L.reverse = (List.range m).map g := by
  refine ⟨(List.range m).map fun i => g (m - 1 - i), ?_, ?_⟩
  · apply mapM_map_some
    intro i hi
    have hi := List.mem_range.mp hi
    obtain ⟨ls, h1, h2⟩ := h (m - 1 - i) (by omega)
    have h3 : bs.mapM (fun b => b.raws[i]?) = some ls := by
      rw [mapM_some_iff] at h1 ⊢
      rw [← h1]
      apply List.map_congr_left
      intro b hb
      have := hm b hb
      rw [← this, getElem?_reverse' _ _ (by omega)]
    unfold combined
    rw [h3]
    exact h2
  · apply List.ext_getElem
    · simp
    · intro i h1 h2
      simp only [List.length_reverse, List.length_map, List.length_range] at h1 h2
      simp only [List.getElem_reverse, List.getElem_map, List.getElem_range, List.length_map, List.length_range]
      congr 1
      omega

theorem flatMap_one {A : Type} (l : List A) : (l.flatMap fun v => List.replicate 1 v) = l := by
  induction l with
  | nil => rfl
  | cons a l ih => simp [List.flatMap_cons, ih]

/-- Bitmaps recorded while there are no lists yet. -/
theorem recordAll_bits (n : Nat) (bs : List (Option (List Bool))) :
    ∀ c : Ctx, c.last = none → c.mult = 1 → (bs.any Option.isSome = true → c.defs ≠ []) →
      Ctx.recordAll (bs.map (Raw.validity · n)) c =
        some { c with layers := c.layers ++ bs.map bitLayer, defs := markAll bs c.curDef c.defs,
                      curDef := c.curDef + defSum (bs.map bitLayer), hasNulls := c.hasNulls || bs.any Option.isSome } := by
  induction bs with
  | nil => intro c _ _ _; simp [Ctx.recordAll, markAll, defSum]
  | cons b bs ih =>
    intro c hl hmu hd
    cases b with
    | none =>
      simp only [List.map_cons, Ctx.recordAll, Ctx.record, Ctx.recordBits]
      rw [ih]
      · simp [Ctx.checkout, Layer.defLevels, bitLayer, markAll, defSum]
      · exact hl
      · exact hmu
      · intro h; exact hd (by simpa using h)
    | some x =>
      have hne : c.defs ≠ [] := hd (by simp)
      simp only [List.map_cons, Ctx.recordAll, Ctx.record, Ctx.recordBits, Ctx.doRecord, Ctx.checkout, if_neg hne, hl, hmu, flatMap_one]
      rw [ih]
      · simp [Layer.defLevels, bitLayer, markAll, defSum, Nat.add_assoc, hl, hmu]
      · rfl
      · rfl
      · intro _ h0
        simp only at h0
        have := congrArg List.length h0
        rw [markNulls_length] at this
        exact hne (List.length_eq_zero_iff.mp this)

theorem recordAll_append (xs ys : List Raw) : ∀ c, Ctx.recordAll (xs ++ ys) c = (Ctx.recordAll xs c).bind (Ctx.recordAll ys) := by
  induction xs with
  | nil => intro c; rfl
  | cons x xs ih =>
    intro c
    simp only [List.cons_append, Ctx.recordAll]
    cases c.record x with
    | none => rfl
    | some c' => exact ih c'

/-- The bitmaps of some arrays at layer `j`, put together. -/
def layerBits {V : Type} (arrs : List (Arr V)) (j : Nat) : Option (List Bool) :=
  joinBits (arrs.map fun a => ((a.bitmaps[j]?).join, a.len))

/-- The bitmaps of some arrays, put together layer by layer. -/
def pageBits {V : Type} (m : Nat) (arrs : List (Arr V)) : List (Option (List Bool)) := (List.range m).map (layerBits arrs)

theorem join_getElem? {A : Type} (l : List (Option A)) (j : Nat) (h : j < l.length) : (l[j]?).join = l[j] := by
  rw [List.getElem?_eq_getElem h]; rfl

/-- The cells of some arrays are those of their bitmaps put together. -/
theorem readBits_page {V : Type} (arrs : List (Arr V)) (m : Nat) (hm : ∀ a ∈ arrs, m ≤ a.bitmaps.length)
    (hl : ∀ a ∈ arrs, a.leaves.length = a.len) (hok : ∀ a ∈ arrs, ∀ b ∈ a.bitmaps, BitsOk b a.len) :
    readBits (pageBits m arrs) ((arrs.flatMap Arr.leaves).map .item) =
      arrs.flatMap fun a => readBits (a.bitmaps.take m) (a.leaves.map .item) := by
  induction m with
  | zero => simp [pageBits, readBits, List.map_flatMap]
  | succ m ih =>
    have ih := ih (fun a ha => by have := hm a ha; omega)
    unfold pageBits at ih ⊢
    rw [List.range_succ, List.map_append, List.map_cons, List.map_nil, readBits_snoc, ih]
    have hlen : ∀ a ∈ arrs, (readBits (a.bitmaps.take m) (a.leaves.map Val.item)).length = a.len := by
      intro a ha
      rw [readBits_length _ _ (fun b hb => by
        rw [List.length_map, hl a ha]; exact hok a ha b (List.mem_of_mem_take hb)), List.length_map, hl a ha]
    have h1 := mask_join (arrs.map fun a => ((a.bitmaps[m]?).join, readBits (a.bitmaps.take m) (a.leaves.map Val.item))) (by
      intro x hx
      obtain ⟨a, ha, rfl⟩ := List.mem_map.mp hx
      have hlt : m < a.bitmaps.length := by have := hm a ha; omega
      simp only
      rw [hlen a ha, join_getElem? _ _ hlt]
      exact hok a ha _ (List.getElem_mem hlt))
    rw [List.map_map, List.flatMap_map, List.flatMap_map] at h1
    have h2 : (arrs.map ((fun x => (x.1, x.2.length)) ∘ fun a : Arr V => ((a.bitmaps[m]?).join, readBits (a.bitmaps.take m) (a.leaves.map Val.item))))
        = arrs.map fun a => ((a.bitmaps[m]?).join, a.len) := by
      apply List.map_congr_left
      intro a ha
      simp only [Function.comp]
      rw [hlen a ha]
    rw [h2] at h1
    unfold layerBits
    rw [h1]
    rw [List.flatMap_def, List.flatMap_def]
    congr 1
    apply List.map_congr_left
    intro a ha
    have hlt : m < a.bitmaps.length := by have := hm a ha; omega
    rw [join_getElem? _ _ hlt, ← List.take_append_getElem hlt, readBits_snoc]

/-! ### Columns without lists -/

theorem flat_lens {V : Type} (arrs : List (Arr V)) (m : Nat) :
    ∀ b ∈ pageBits m arrs, (∀ a ∈ arrs, m ≤ a.bitmaps.length ∧ ∀ b ∈ a.bitmaps, BitsOk b a.len) → BitsOk b (arrs.map Arr.len).sum := by
  intro b hb h
  unfold pageBits layerBits at hb
  obtain ⟨j, hj, rfl⟩ := List.mem_map.mp hb
  have hj := List.mem_range.mp hj
  have := joinBits_ok (arrs.map fun a => ((a.bitmaps[j]?).join, a.len)) (by
    intro x hx
    obtain ⟨a, ha, rfl⟩ := List.mem_map.mp hx
    have hlt : j < a.bitmaps.length := by have := (h a ha).1; omega
    simp only
    rw [join_getElem? _ _ hlt]
    exact (h a ha).2 _ (List.getElem_mem hlt))
  rw [List.map_map] at this
  exact this

/-- Some layer has a bitmap. -/
theorem any_pageBits {V : Type} (arrs : List (Arr V)) (m : Nat) :
    (pageBits m arrs).any Option.isSome = (List.range m).any (hasBitmap arrs) := by
  unfold pageBits
  rw [List.any_map]
  congr 1
  funext j
  simp only [Function.comp, layerBits, joinBits, hasBitmap, List.any_map]
  rw [show ((fun x : Option (List Bool) × Nat => x.1.isSome) ∘ fun a : Arr V => (a.bitmaps[j]?.join, a.len)) =
    fun a => (a.bitmaps[j]?.join).isSome from rfl]
  cases h : (arrs.any fun a => ((a.bitmaps[j]?).join).isSome) <;> simp

/-- What the encoders collect from an array without lists. -/
def flatBuilder {V : Type} (a : Arr V) : Builder := ⟨a.bitmaps.reverse.map (Raw.validity · a.len), some a.len⟩

theorem flatBuilder_hasNulls {V : Type} (a : Arr V) : (flatBuilder a).hasNulls = a.bitmaps.any Option.isSome := by
  unfold Builder.hasNulls flatBuilder
  simp only [List.any_map, List.any_reverse]
  congr 1
  funext b
  cases b <;> rfl

theorem flatBuilder_isEmpty {V : Type} (a : Arr V) : (flatBuilder a).isEmpty = !a.bitmaps.any Option.isSome := by
  unfold Builder.isEmpty flatBuilder
  simp only [List.all_map, List.all_reverse, List.not_any_eq_all_not]
  congr 1
  funext b
  cases b <;> rfl

theorem flatBuilder_hasOffsets {V : Type} (a : Arr V) : (flatBuilder a).hasOffsets = false := by
  unfold Builder.hasOffsets flatBuilder
  simp [List.any_eq_false]

theorem any_bitmaps {V : Type} (arrs : List (Arr V)) (m : Nat) (hm : ∀ a ∈ arrs, a.bitmaps.length = m) :
    arrs.any (fun a => a.bitmaps.any Option.isSome) = (pageBits m arrs).any Option.isSome := by
  rw [any_pageBits]
  rw [Bool.eq_iff_iff]
  simp only [List.any_eq_true, hasBitmap, List.mem_range]
  constructor
  · rintro ⟨a, ha, b, hb, h⟩
    obtain ⟨j, hj, rfl⟩ := List.getElem_of_mem hb
    exact ⟨j, by rw [← hm a ha]; exact hj, a, ha, by rw [join_getElem? _ _ hj]; exact h⟩
  · rintro ⟨j, hj, a, ha, h⟩
    have hj : j < a.bitmaps.length := by rw [hm a ha]; exact hj
    rw [join_getElem? _ _ hj] at h
    exact ⟨a, ha, _, List.getElem_mem hj, h⟩

/-- The levels of a page of a column without lists. -/
theorem encode_flat {V : Type} (q : Nat) (arrs : List (Arr V)) (hne : arrs ≠ []) (hok : ∀ a ∈ arrs, a.Ok (List.replicate q .struct))
    (hlen : 0 < (arrs.map Arr.len).sum) :
    encode (List.replicate q .struct) arrs =
      some (⟨none, if (pageBits (q + 1) arrs).any Option.isSome then
          some (markAll (pageBits (q + 1) arrs) 1 (List.replicate (arrs.map Arr.len).sum 0)) else none,
        (pageBits (q + 1) arrs).map bitLayer⟩, arrs.flatMap Arr.leaves) := by
  have hbl : ∀ a ∈ arrs, a.bitmaps.length = q + 1 := fun a ha => bitmaps_length q a (hok a ha)
  have hc : arrs.mapM (fun a => collect (List.replicate q .struct) a Builder.empty) =
      some (arrs.map fun a => (flatBuilder a, a.leaves)) := by
    apply mapM_map_some
    intro a ha
    rw [collect_chain q a _ (hok a ha) rfl]
    rfl
  unfold encode
  rw [hc]
  simp only [List.map_map, List.flatMap_map]
  have hany := any_bitmaps arrs (q + 1) hbl
  suffices hs : serialize (arrs.map flatBuilder) = some ⟨none, if (pageBits (q + 1) arrs).any Option.isSome then
          some (markAll (pageBits (q + 1) arrs) 1 (List.replicate (arrs.map Arr.len).sum 0)) else none,
        (pageBits (q + 1) arrs).map bitLayer⟩ by
    rw [show ((fun x : Builder × List V => x.1) ∘ fun a => (flatBuilder a, a.leaves)) = flatBuilder from rfl, hs]
    rfl
  cases arrs with
  | nil => exact absurd rfl hne
  | cons a arrs =>
    rw [List.map_cons, serialize, ← List.map_cons (f := flatBuilder)]
    have hE : ((a :: arrs).map flatBuilder).all Builder.isEmpty = !(pageBits (q + 1) (a :: arrs)).any Option.isSome := by
      rw [List.all_map, ← hany, List.not_any_eq_all_not]
      congr 1
      funext b
      exact flatBuilder_isEmpty b
    rw [hE]
    cases hb : (pageBits (q + 1) (a :: arrs)).any Option.isSome with
    | false =>
      simp only [Bool.not_false, if_true, Bool.false_eq_true, if_false, Option.some.injEq, RepDefs.mk.injEq, true_and]
      have h1 : (flatBuilder a).raws.length = q + 1 := by simp [flatBuilder, hbl a (by simp)]
      apply List.ext_getElem
      · simp [h1, pageBits]
      · intro i h2 h3
        simp only [List.getElem_map]
        have h4 : i < (pageBits (q + 1) (a :: arrs)).length := by simpa using h3
        have := (List.any_eq_false.mp hb) _ (List.getElem_mem h4)
        simp only [bitLayer]
        rw [if_neg this]
    | true =>
      simp only [Bool.not_true, Bool.false_eq_true, if_false, if_true]
      have h1 : ∀ b ∈ (a :: arrs).map flatBuilder, b.raws.length = q + 1 := by
        intro b hb
        obtain ⟨x, hx, rfl⟩ := List.mem_map.mp hb
        simp [flatBuilder, hbl x hx]
      have hL : ((a :: arrs).map flatBuilder).mapM Builder.len = some ((a :: arrs).map Arr.len) := by
        rw [mapM_some_iff, List.map_map, List.map_map]; rfl
      obtain ⟨L, hL1, hL2⟩ := combined_all ((a :: arrs).map flatBuilder) (q + 1) h1
        (fun j => .validity (layerBits (a :: arrs) j) ((a :: arrs).map Arr.len).sum) (by
          intro j hj
          refine ⟨(a :: arrs).map fun x => .validity (x.bitmaps[j]?).join x.len, ?_, ?_⟩
          · rw [mapM_some_iff, List.map_map, List.map_map]
            apply List.map_congr_left
            intro x hx
            have hjx : j < x.bitmaps.length := by rw [hbl x hx]; exact hj
            simp only [Function.comp, flatBuilder, ← List.map_reverse, List.reverse_reverse, List.getElem?_map]
            rw [join_getElem? _ _ hjx, List.getElem?_eq_getElem hjx]
            rfl
          · have := concatLayers_validity ((a :: arrs).map fun x => ((x.bitmaps[j]?).join, x.len))
            rw [List.map_map, List.map_map] at this
            exact this)
      have hra : (flatBuilder a).raws.length = q + 1 := h1 _ (by simp)
      rw [hL, hra, hL1]
      simp only
      rw [hL2]
      have hN : ((a :: arrs).map flatBuilder).any Builder.hasNulls = true := by
        rw [List.any_map, ← hb, ← hany]
        congr 1
        funext b
        exact flatBuilder_hasNulls b
      have hO : ((a :: arrs).map flatBuilder).any Builder.hasOffsets = false := by
        rw [List.any_map, List.any_eq_false]
        intro x _
        simp [flatBuilder_hasOffsets]
      rw [hN, hO]
      have hmap : (List.range (q + 1)).map (fun j => Raw.validity (layerBits (a :: arrs) j) ((a :: arrs).map Arr.len).sum)
          = (pageBits (q + 1) (a :: arrs)).map (Raw.validity · ((a :: arrs).map Arr.len).sum) := by
        unfold pageBits; rw [List.map_map]; rfl
      rw [hmap, recordAll_bits _ _ _ rfl rfl]
      · simp [Ctx.build, Ctx.new, collapse, hb]
      · intro _ h0
        have h5 := congrArg List.length h0
        simp only [Ctx.new, if_true, List.length_replicate, List.length_nil] at h5
        omega

end Verif.RepDef
