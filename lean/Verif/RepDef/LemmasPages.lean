import Verif.RepDef.LemmasListRead
/-!
# Lemmas on levels: pages, from arrays and back
-/
namespace Verif.RepDef
open Verif.Mini (Layer RepDefs)

/-! ### Columns without lists -/

/-- A page of a column without lists as it is read: its items, with their levels. -/
structure FlatPart (V : Type) where
  w : Bool
  items : List (Nat × V)

def FlatPart.page {V : Type} (inner : List Layer) (P : FlatPart V) : RepDefs :=
  ⟨none, if P.w then some (P.items.map (·.1)) else none, inner⟩

structure FlatOk {V : Type} (inner : List Layer) (P : FlatPart V) : Prop where
  innerItems : ∀ l ∈ inner, isItem l
  levels : ∀ e ∈ P.items, e.1 ≤ defSum inner
  innerDefs : Layer.nullableItem ∈ inner → P.w = true

theorem flat_in {V : Type} (inner : List Layer) (P : FlatPart V) (h : FlatOk inner P) :
    PageIn inner (P.page inner, P.items.map (·.1)) := by
  refine ⟨⟨[], by simp [FlatPart.page]⟩, ?_, ?_⟩
  · intro ds hds
    simp only [FlatPart.page] at hds
    split at hds
    · simp only [Option.some.injEq] at hds
      subst hds
      apply shown_flat _ inner h.innerItems rfl
      intro d hd
      obtain ⟨e, he, rfl⟩ := List.mem_map.mp hd
      exact h.levels e he
    · simp at hds
  · intro hm
    simp [FlatPart.page, h.innerDefs hm]

theorem decode_flat {V : Type} (inner : List Layer) (q : Nat) (hq : inner.length = q + 1) (parts : List (FlatPart V)) (hne : parts ≠ [])
    (hp : ∀ P ∈ parts, FlatOk inner P) :
    ∃ us arr, decode (List.replicate q .struct) (parts.map fun P => Unraveler.new (P.page inner))
        ((parts.flatMap FlatPart.items).map (·.2)) = some (us, arr) ∧
      arr.cells = (parts.flatMap FlatPart.items).map (levelCell inner) ∧ arr.Ok (List.replicate q .struct) := by
  have hi : ∀ l ∈ inner, isItem l := by
    cases parts with
    | nil => exact absurd rfl hne
    | cons P _ => exact (hp P (by simp)).innerItems
  have hfl : ((parts.map fun P => (P.page inner, P.items.map (·.1))).flatMap (·.2)) = (parts.flatMap FlatPart.items).map (·.1) := by
    rw [List.flatMap_map, List.map_flatMap]
  obtain ⟨arr, h1, h2, h3, h4⟩ := decode_inner inner hi (parts.map fun P => (P.page inner, P.items.map (·.1))) (by simpa using hne)
    (by intro x hx; obtain ⟨P, hP, rfl⟩ := List.mem_map.mp hx; exact flat_in inner P (hp P hP))
    ((parts.flatMap FlatPart.items).map (·.2)) (by rw [hfl]; simp) q (by omega)
  rw [List.map_map] at h1
  refine ⟨_, arr, h1, ?_, h4⟩
  rw [h2, hfl, ← hq, List.take_length, zip_cells]
  congr 1
  generalize parts.flatMap FlatPart.items = l
  induction l with
  | nil => rfl
  | cons e l ih => simp [ih]

/-- The layers of a page of a column without lists. -/
def flatLayers {V : Type} (q : Nat) (arrs : List (Arr V)) : List Layer :=
  (List.range (q + 1)).map fun j => if hasBitmap arrs j then .nullableItem else .allValidItem

theorem layerBits_isSome {V : Type} (arrs : List (Arr V)) (j : Nat) : (layerBits arrs j).isSome = hasBitmap arrs j := by
  simp only [layerBits, joinBits, hasBitmap, List.any_map]
  rw [show ((fun x : Option (List Bool) × Nat => x.1.isSome) ∘ fun a : Arr V => (a.bitmaps[j]?.join, a.len)) =
    fun a => (a.bitmaps[j]?.join).isSome from rfl]
  cases h : (arrs.any fun a => ((a.bitmaps[j]?).join).isSome) <;> simp

theorem flatLayers_eq {V : Type} (q : Nat) (arrs : List (Arr V)) : (pageBits (q + 1) arrs).map bitLayer = flatLayers q arrs := by
  unfold pageBits flatLayers
  rw [List.map_map]
  apply List.map_congr_left
  intro j _
  simp only [Function.comp, bitLayer]
  rw [layerBits_isSome]

theorem encode_flat_part {V : Type} (q : Nat) (arrs : List (Arr V)) (hok : ∀ a ∈ arrs, a.Ok (List.replicate q .struct))
    (hcells : arrs.flatMap Arr.cells ≠ []) :
    ∃ P : FlatPart V, encode (List.replicate q .struct) arrs = some (P.page (flatLayers q arrs), P.items.map (·.2)) ∧
      FlatOk (flatLayers q arrs) P ∧ arrs.flatMap Arr.cells = P.items.map (levelCell (flatLayers q arrs)) := by
  have hne : arrs ≠ [] := by intro h; rw [h] at hcells; exact hcells rfl
  have hll : ∀ a ∈ arrs, a.leaves.length = a.len := fun a ha => leaves_length q a (hok a ha)
  have hcl : ∀ a ∈ arrs, a.cells.length = a.len := fun a ha => cells_length q a (hok a ha)
  have hsum : (arrs.flatMap Arr.cells).length = (arrs.map Arr.len).sum := by
    rw [List.length_flatMap]; congr 1; exact List.map_congr_left hcl
  have hlv : (arrs.flatMap Arr.leaves).length = (arrs.map Arr.len).sum := by
    rw [List.length_flatMap]; congr 1; exact List.map_congr_left hll
  have he := encode_flat q arrs hne hok (by rw [← hsum]; exact List.length_pos_iff.mpr hcells)
  have hc := flat_cells q arrs hok
  rw [zip_cells, flatLayers_eq] at hc
  rw [flatLayers_eq] at he
  have hmk : (markAll (pageBits (q + 1) arrs) 1 (List.replicate (arrs.map Arr.len).sum 0)).length = (arrs.map Arr.len).sum := by
    rw [markAll_length, List.length_replicate]
  refine ⟨⟨(pageBits (q + 1) arrs).any Option.isSome, (markAll (pageBits (q + 1) arrs) 1 (List.replicate (arrs.map Arr.len).sum 0)).zip
    (arrs.flatMap Arr.leaves)⟩, ?_, ⟨?_, ?_, ?_⟩, hc⟩
  · rw [he]
    simp only [FlatPart.page]
    rw [List.map_fst_zip (by rw [hmk, hlv]; exact Nat.le_refl _), List.map_snd_zip (by rw [hmk, hlv]; exact Nat.le_refl _)]
  · intro l hl
    obtain ⟨j, _, rfl⟩ := List.mem_map.mp hl
    split
    · exact Or.inl rfl
    · exact Or.inr rfl
  · intro e hm
    have h1 : e.1 ∈ markAll (pageBits (q + 1) arrs) 1 (List.replicate (arrs.map Arr.len).sum 0) := (List.of_mem_zip hm).1
    have := markAll_le (pageBits (q + 1) arrs) (arrs.map Arr.len).sum e.1 h1
    rw [flatLayers_eq] at this
    exact this
  · intro h
    rw [← flatLayers_eq] at h
    exact (nullable_mem _).mp h

/-! ### Columns of lists -/

theorem inside_wrap {V : Type} : ∀ (p : Nat) (x : Val V), (wrap p x).inside p = some x
  | 0, _ => rfl
  | p + 1, x => inside_wrap p x

theorem listAt_wrap {V : Type} (p : Nat) (r : Option (List (Val V))) : (wrap p (rowCell r)).listAt p = r := by
  unfold Val.listAt
  rw [inside_wrap]
  cases r <;> rfl

theorem mask_some {V : Type} : ∀ (bs : List Bool) (vs : List (Val V)), bs.length = vs.length →
    (∀ c ∈ List.zipWith (fun b v => if b then Val.valid v else Val.null) bs vs, ∃ x, c = Val.valid x) → bs.all id = true
  | [], _, _, _ => rfl
  | _ :: _, [], h, _ => by simp at h
  | b :: bs, v :: vs, h, hc => by
    simp only [List.zipWith_cons_cons, List.mem_cons, forall_eq_or_imp] at hc
    rw [List.all_cons, mask_some bs vs (by simpa using h) hc.2]
    cases b with
    | true => rfl
    | false => obtain ⟨x, hx⟩ := hc.1; simp at hx

/-- If no cell is null inside of the structs, no struct is null. -/
theorem noNulls_of_cells {V : Type} (p q : Nat) : ∀ a : Arr V, a.Ok (List.replicate p .struct ++ .list :: List.replicate q .struct) →
    (∀ c ∈ a.cells, (c.inside p).isSome = true) → ∀ b ∈ a.around p, NoNulls b := by
  induction p with
  | zero => intro a _ _ b hb; simp [Arr.around] at hb
  | succ p ih =>
    intro a h hc
    cases a <;> simp only [List.replicate_succ, List.cons_append, Arr.Ok] at h
    rename_i c bits
    simp only [Arr.cells] at hc
    have hlen : c.cells.length = c.len := by
      obtain ⟨h1, _, h3, h4⟩ := outer_facts p _ c h.1
      have hl : ∀ (p : Nat) (c : Arr V), c.Ok (List.replicate p .struct ++ .list :: List.replicate q .struct) → c.cells.length = c.len := by
        intro p
        induction p with
        | zero =>
          intro c hk
          cases c <;> simp only [List.replicate_zero, List.nil_append, Arr.Ok] at hk
          rename_i offs d b
          rw [Arr.cells, mask_length _ _ (by rw [List.length_map, slices_length]; exact hk.2.1), List.length_map, slices_length]
          rfl
        | succ p ih =>
          intro c hk
          cases c <;> simp only [List.replicate_succ, List.cons_append, Arr.Ok] at hk
          rename_i d b
          have := ih d hk.1
          rw [Arr.cells, mask_length _ _ (by rw [this]; exact hk.2), this]
          rfl
      exact hl p c h.1
    have hb : NoNulls bits := by
      intro bs hbs
      subst hbs
      apply mask_some bs c.cells (by rw [h.2 bs rfl, hlen])
      intro x hx
      have := hc x hx
      cases x with
      | valid y => exact ⟨y, rfl⟩
      | null => simp [Val.inside] at this
      | item v => simp [Val.inside] at this
      | list cs => simp [Val.inside] at this
    have hm : mask bits c.cells = c.cells.map .valid := by
      cases bits with
      | none => rfl
      | some bs => simp only [mask]; rw [zipWith_all _ _ (by rw [h.2 bs rfl, hlen]) (hb bs rfl)]
    intro b hbm
    simp only [Arr.around, List.mem_append, List.mem_singleton] at hbm
    rcases hbm with hbm | hbm
    · refine ih c h.1 ?_ b hbm
      intro x hx
      have := hc (.valid x) (by rw [hm]; exact List.mem_map_of_mem hx)
      exact this
    · subst hbm; exact hb

theorem cell_not_clean {V : Type} : ∀ (ls : List Layer) (cmp d : Nat) (x : Val V), x.clean = false → (cell ls cmp d x).clean = false
  | [], _, _, _, h => h
  | l :: ls, cmp, d, x, h => by
    rw [cell]
    apply cell_not_clean
    unfold cellStep
    split
    · exact h
    · split
      · exact h
      · rfl

/-- An item with a level is null somewhere. -/
theorem clean_zero {V : Type} : ∀ (ls : List Layer) (d : Nat) (x : Val V), (∀ l ∈ ls, isItem l) → d ≤ defSum ls →
    (cell ls 0 d x).clean = true → d = 0
  | [], d, x, _, hd, _ => by simp [defSum] at hd; exact hd
  | l :: ls, d, x, hi, hd, h => by
    rcases hi l (by simp) with hl | hl
    · subst hl
      cases d with
      | zero => rfl
      | succ d =>
        exfalso
        rw [cell, cell_not_clean ls _ _ _ (by simp [cellStep, Val.clean])] at h
        exact absurd h (by simp)
    · subst hl
      refine clean_zero ls d (cellStep .allValidItem 0 d x) (fun y hy => hi y (by simp [hy])) ?_ h
      simpa [defSum, Layer.defLevels] using hd

theorem collect_cols {V : Type} (p q : Nat) : ∀ (arrs : List (Arr V)),
    (∀ a ∈ arrs, a.Ok (List.replicate p .struct ++ .list :: List.replicate q .struct)) →
    (∀ a ∈ arrs, ∀ b ∈ a.around p, NoNulls b) →
    ∃ cols : List (Col V), arrs.mapM (fun a => collect (List.replicate p .struct ++ .list :: List.replicate q .struct) a Builder.empty) =
        some (cols.map fun c => (c.builder, c.child.leaves)) ∧ cols.length = arrs.length ∧
      (∀ c ∈ cols, ColOk p q c) ∧ (∀ c ∈ cols, ∀ b ∈ c.outer, NoNulls b) ∧
      cols.any (fun c => c.desc.validity.isSome) = hasBitmap arrs (q + 1) ∧
      arrs.flatMap Arr.cells = ((cols.flatMap Col.rows).map fun r => wrap p (rowCell r)) ∧ cols.map Col.outer = arrs.map (Arr.around p)
  | [], _, _ => ⟨[], rfl, rfl, by simp, by simp, rfl, rfl, rfl⟩
  | a :: arrs, hok, hnn => by
    obtain ⟨c, h1, h2, _, h4, _, h6, h7⟩ := collect_list p q a (hok a (by simp))
    obtain ⟨cols, i1, i2, i3, i4, i5, i6, i7⟩ := collect_cols p q arrs (fun x hx => hok x (by simp [hx])) (fun x hx => hnn x (by simp [hx]))
    refine ⟨c :: cols, ?_, by simp [i2], ?_, ?_, ?_, ?_, by rw [List.map_cons, List.map_cons, i7, h4]⟩
    · rw [List.mapM_cons, h1, i1]; rfl
    · intro x hx; rcases List.mem_cons.mp hx with h | h
      · subst h; exact h2
      · exact i3 x h
    · intro x hx; rcases List.mem_cons.mp hx with h | h
      · subst h; rw [h4]; exact hnn a (by simp)
      · exact i4 x h
    · unfold hasBitmap at i5 ⊢
      rw [List.any_cons, List.any_cons, i5, h6]
    · rw [List.flatMap_cons, List.flatMap_cons, List.map_append, i6, h7 (hnn a (by simp))]

theorem specialsOf_none {A : Type} : ∀ (rows : List (Option (List A))) (i : Nat), (∀ r ∈ rows, ∃ x xs, r = some (x :: xs)) →
    specialsOf rows i = []
  | [], _, _ => rfl
  | r :: rs, i, h => by
    obtain ⟨x, xs, rfl⟩ := h r (by simp)
    rw [specialsOf, specialsOf_none rs (i + 1) (fun y hy => h y (by simp [hy]))]

/-- The bitmaps of the structs around the lists are the last ones. -/
theorem around_bitmaps {V : Type} (p q : Nat) : ∀ a : Arr V, a.Ok (List.replicate p .struct ++ .list :: List.replicate q .struct) →
    a.bitmaps.length = q + 2 + p ∧ a.around p = a.bitmaps.drop (q + 2) := by
  induction p with
  | zero =>
    intro a h
    cases a <;> simp only [List.replicate_zero, List.nil_append, Arr.Ok] at h
    rename_i offs c bits
    have := bitmaps_length q c h.1
    simp [Arr.around, Arr.bitmaps, this]
  | succ p ih =>
    intro a h
    cases a <;> simp only [List.replicate_succ, List.cons_append, Arr.Ok] at h
    rename_i c bits
    obtain ⟨h1, h2⟩ := ih c h.1
    refine ⟨by simp only [Arr.bitmaps, List.length_append, h1, List.length_singleton]; omega, ?_⟩
    rw [Arr.around, Arr.bitmaps, h2, List.drop_append_of_le_length (by omega)]

theorem slice_bare {V : Type} (s n : Nat) : ∀ a : Arr V, (∀ b ∈ a.bitmaps, b = none) → ∀ b ∈ (a.slice s n).bitmaps, b = none := by
  intro a
  induction a generalizing s n with
  | prim vals bits => intro h; simp only [Arr.bitmaps, List.mem_singleton, forall_eq] at h; subst h; simp [Arr.slice, Arr.bitmaps]
  | struct c bits ih =>
    intro h b hb
    simp only [Arr.bitmaps, List.mem_append, List.mem_singleton, Arr.slice] at h hb
    rcases hb with hb | hb
    · exact ih s n (fun x hx => h x (Or.inl hx)) b hb
    · rw [hb, h bits (Or.inr rfl)]; rfl
  | list offs c bits ih =>
    intro h b hb
    simp only [Arr.bitmaps, List.mem_append, List.mem_singleton, Arr.slice] at h hb
    rcases hb with hb | hb
    · exact h b (Or.inl hb)
    · rw [hb, h bits (Or.inr rfl)]; rfl
  | fsl dim c bits ih =>
    intro h b hb
    simp only [Arr.bitmaps, List.mem_append, List.mem_singleton, Arr.slice] at h hb
    rcases hb with hb | hb
    · exact ih _ _ (fun x hx => h x (Or.inl hx)) b hb
    · rw [hb, h bits (Or.inr rfl)]; rfl

theorem addBits_bare (b b' : Builder) (n : Nat) (hb : b.hasNulls = false) (h : b.addBits none n = some b') : b'.hasNulls = false := by
  unfold Builder.addBits at h
  simp only at h
  split at h
  · simp only [Option.some.injEq] at h
    subst h
    unfold Builder.hasNulls at hb ⊢
    rw [List.any_append, hb]
    rfl
  · cases h

/-- Arrays without bitmaps make a builder without nulls. -/
theorem collect_bare {V : Type} : ∀ (ks : List Kind) (a : Arr V) (b : Builder) (r : Builder × List V), collect ks a b = some r →
    (∀ x ∈ a.bitmaps, x = none) → b.hasNulls = false → r.1.hasNulls = false
  | [], .prim vals bits, b, r, h, ha, hb => by
    have : bits = none := ha bits (by simp [Arr.bitmaps])
    subst this
    rw [collect, Option.map_eq_some_iff] at h
    obtain ⟨b', h1, rfl⟩ := h
    exact addBits_bare b b' _ hb h1
  | .struct :: ks, .struct c bits, b, r, h, ha, hb => by
    have : bits = none := ha bits (by simp [Arr.bitmaps])
    subst this
    rw [collect] at h
    split at h
    · cases h
    · rename_i b' hb'
      exact collect_bare ks c b' r h (fun x hx => ha x (by simp [Arr.bitmaps, hx])) (addBits_bare b b' _ hb hb')
  | .list :: ks, .list offs c bits, b, r, h, ha, hb => by
    have : bits = none := ha bits (by simp [Arr.bitmaps])
    subst this
    rw [collect] at h
    split at h
    · cases h
    · rename_i b' g hb'
      refine collect_bare ks _ b' r h ?_ ?_
      · have hl : listValues offs none c g = trimmed offs c := by cases g <;> rfl
        rw [hl]
        exact slice_bare _ _ c (fun x hx => ha x (by simp [Arr.bitmaps, hx]))
      · unfold Builder.addOffsets at hb'
        simp only at hb'
        split at hb'
        · simp only [Option.some.injEq, Prod.mk.injEq] at hb'
          rw [← hb'.1]
          unfold Builder.hasNulls at hb ⊢
          rw [List.any_append, hb]
          rfl
        · cases hb'
  | .fsl dim :: ks, .fsl _ c bits, b, r, h, ha, hb => by
    have : bits = none := ha bits (by simp [Arr.bitmaps])
    subst this
    rw [collect] at h
    split at h
    · cases h
    · rename_i b' hb'
      refine collect_bare ks c b' r h (fun x hx => ha x (by simp [Arr.bitmaps, hx])) ?_
      unfold Builder.addFsl at hb'
      split at hb'
      · simp only [Option.some.injEq] at hb'
        subst hb'
        unfold Builder.hasNulls at hb ⊢
        rw [List.any_append, hb]
        rfl
      · cases hb'
  | [], .struct _ _, _, _, h, _, _ => by simp [collect] at h
  | [], .list _ _ _, _, _, h, _, _ => by simp [collect] at h
  | [], .fsl _ _ _, _, _, h, _, _ => by simp [collect] at h
  | .struct :: _, .prim _ _, _, _, h, _, _ => by simp [collect] at h
  | .struct :: _, .list _ _ _, _, _, h, _, _ => by simp [collect] at h
  | .struct :: _, .fsl _ _ _, _, _, h, _, _ => by simp [collect] at h
  | .list :: _, .prim _ _, _, _, h, _, _ => by simp [collect] at h
  | .list :: _, .struct _ _, _, _, h, _, _ => by simp [collect] at h
  | .list :: _, .fsl _ _ _, _, _, h, _, _ => by simp [collect] at h
  | .fsl _ :: _, .prim _ _, _, _, h, _, _ => by simp [collect] at h
  | .fsl _ :: _, .struct _ _, _, _, h, _, _ => by simp [collect] at h
  | .fsl _ :: _, .list _ _ _, _, _, h, _, _ => by simp [collect] at h

theorem mapM_bare {V : Type} (ks : List Kind) : ∀ (arrs : List (Arr V)) (rs : List (Builder × List V)),
    arrs.mapM (fun a => collect ks a Builder.empty) = some rs → (∀ a ∈ arrs, ∀ x ∈ a.bitmaps, x = none) →
    (rs.map (·.1)).any Builder.hasNulls = false
  | [], rs, h, _ => by simp at h; subst h; rfl
  | a :: arrs, rs, h, ha => by
    rw [List.mapM_cons] at h
    cases h1 : collect ks a Builder.empty with
    | none => rw [h1] at h; simp at h
    | some r =>
      rw [h1] at h
      cases h2 : arrs.mapM (fun a => collect ks a Builder.empty) with
      | none => rw [h2] at h; simp at h
      | some rs' =>
        rw [h2] at h
        simp at h
        subst h
        rw [List.map_cons, List.any_cons, mapM_bare ks arrs rs' h2 (fun x hx => ha x (by simp [hx])),
          collect_bare ks a _ r h1 (ha a (by simp)) rfl]
        rfl

/-- What is written for a page of lists. -/
theorem encode_list_part {V : Type} (p q : Nat) (arrs : List (Arr V))
    (hok : ∀ a ∈ arrs, a.Ok (List.replicate p .struct ++ .list :: List.replicate q .struct)) (hp : ListPage p (q + 1) arrs) :
    ∃ (inner outer : List Layer) (P : Part V),
      encode (List.replicate p .struct ++ .list :: List.replicate q .struct) arrs =
        some (P.page inner outer, (flat P.rows).map (·.2)) ∧
      PartOk inner outer P ∧ arrs.flatMap Arr.cells = P.rows.map (fun r => wrap p (rowOf inner r)) ∧
      inner.length = q + 1 ∧ outer.length = p ∧ ((∀ a ∈ arrs, ∀ b ∈ a.bitmaps.drop (q + 2), b = none) → defSum outer = 0) ∧
      ((∀ a ∈ arrs, ∀ b ∈ a.bitmaps, b = none) → (∀ c ∈ arrs.flatMap Arr.cells, ∃ x xs, c.listAt p = some (x :: xs)) → P.w = false) := by
  have hne : arrs ≠ [] := by
    obtain ⟨c, hc, _⟩ := hp.element
    intro h; rw [h] at hc; simp at hc
  obtain ⟨cols, h1, h2, h3, h4, h5, h6, h7⟩ := collect_cols p q arrs hok (by
    intro a ha
    apply noNulls_of_cells p q a (hok a ha)
    intro c hc
    exact hp.structs c (List.mem_flatMap.mpr ⟨a, ha, hc⟩))
  have hcne : cols ≠ [] := by
    intro h; rw [h] at h2; exact hne (List.length_eq_zero_iff.mp h2.symm)
  have hval : flat (cols.flatMap Col.rows) ≠ [] := by
    obtain ⟨c, hc, x, xs, hx⟩ := hp.element
    rw [h6] at hc
    obtain ⟨r, hr, rfl⟩ := List.mem_map.mp hc
    rw [listAt_wrap] at hx
    subst hx
    intro h
    have : x ∈ flat (cols.flatMap Col.rows) := List.mem_flatMap.mpr ⟨_, hr, by simp [rowVals]⟩
    rw [h] at this
    exact absurd this (by simp)
  obtain ⟨inner, outer, nulls, empties, w, rows, e1, e2, e3, e4, e5, e6, e7, e8, e9, e10⟩ := serialize_cols p q cols hcne h3 h4 hval
  have hcells : arrs.flatMap Arr.cells = rows.map (fun r => wrap p (rowOf inner r)) := by
    rw [h6, e2, List.map_map]; rfl
  refine ⟨inner, outer, ⟨nulls, empties, w, rows⟩, ?_, ⟨e4, ?_⟩, hcells, e5, e6, ?_, ?_⟩
  · unfold encode
    rw [h1]
    simp only
    rw [List.map_map, show ((fun x : Builder × List V => x.1) ∘ fun c : Col V => (c.builder, c.child.leaves)) = Col.builder from rfl, e1,
      e3, List.flatMap_map]
    rfl
  · unfold GoodFirst
    simp only
    rcases hp.first with hb | ⟨c, hc, hs⟩ | hc
    · left; rw [e7, h5]; exact hb
    · rw [hcells] at hc
      obtain ⟨r, hr, rfl⟩ := List.mem_map.mp hc
      rw [rowOf, listAt_wrap] at hs
      rcases hs with hs | hs
      · left
        cases hn : nulls with
        | true => rfl
        | false =>
          have := e4.nulls hn r hr
          cases r with
          | none => simp at this
          | some r => simp at hs
      · right; left
        cases he : empties with
        | true => rfl
        | false =>
          have := e4.empties he
          rw [List.any_eq_false] at this
          have := this r hr
          cases r with
          | none => simp at hs
          | some r =>
            simp at hs
            subst hs
            simp [isEmptyRow] at this
    · right; right; right
      intro r hr e xs hx
      have := hc _ (by rw [hcells]; exact List.mem_map_of_mem hr) (levelCell inner e) (xs.map (levelCell inner))
        (by rw [rowOf, listAt_wrap, hx]; rfl)
      refine clean_zero inner e.1 (.item e.2) e4.innerItems (e4.levels e ?_) this
      exact List.mem_flatMap.mpr ⟨r, hr, by subst hx; simp [rowVals]⟩
  · intro h
    apply e9
    intro c hc b hb
    have : c.outer ∈ arrs.map (Arr.around p) := by rw [← h7]; exact List.mem_map_of_mem hc
    obtain ⟨a, ha, hao⟩ := List.mem_map.mp this
    rw [← hao, (around_bitmaps p q a (hok a ha)).2] at hb
    exact h a ha b hb
  · intro h hc
    refine e10 ?_ ?_
    · have := mapM_bare _ arrs _ h1 h
      rw [List.map_map] at this
      exact this
    · refine specialsOf_none _ _ ?_
      intro r hr
      obtain ⟨x, xs, hx⟩ := hc _ (by rw [h6]; exact List.mem_map_of_mem hr)
      rw [listAt_wrap] at hx
      exact ⟨x, xs, hx⟩

end Verif.RepDef
