import Verif.RepDef.LemmasListEnc
/-!
# Lemmas on levels: the levels of a page of lists, from the arrays
-/
namespace Verif.RepDef
open Verif.Mini (Layer RepDefs)

/-- What is known of the rows of a page. -/
structure ListOk {V : Type} (inner outer : List Layer) (nulls empties w : Bool) (rows : List (Option (List (Nat × V)))) : Prop where
  innerItems : ∀ l ∈ inner, isItem l
  outerItems : ∀ l ∈ outer, isItem l
  levels : ∀ e ∈ flat rows, e.1 ≤ defSum inner
  nulls : nulls = false → ∀ r ∈ rows, r.isSome = true
  empties : empties = false → rows.any isEmptyRow = false
  innerDefs : Layer.nullableItem ∈ inner → w = true
  outerDefs : Layer.nullableItem ∈ outer → w = true
  specials : w = false → specialsOf rows 0 = []

theorem zip_cells {V : Type} (inner : List Layer) : ∀ (ds : List Nat) (vs : List V),
    List.zipWith (cell inner 0) ds (vs.map .item) = (ds.zip vs).map (levelCell inner)
  | [], _ => by simp
  | _ :: _, [] => by simp
  | d :: ds, v :: vs => by simp [zip_cells inner ds vs, levelCell]

theorem listLayer_defs (n e : Bool) : (listLayer n e).defLevels = n.toNat + e.toNat := by cases n <;> cases e <;> rfl

theorem markAll_nil (bs : List (Option (List Bool))) : ∀ l, markAll bs l [] = [] := by
  intro l
  have := markAll_length bs l []
  exact List.length_eq_zero_iff.mp this

theorem markAll_none (bs : List (Option (List Bool))) (h : bs.any Option.isSome = false) : ∀ l ds, markAll bs l ds = ds := by
  induction bs with
  | nil => intro l ds; rfl
  | cons b bs ih =>
    intro l ds
    simp only [List.any_cons, Bool.or_eq_false_iff] at h
    cases b with
    | some x => simp at h
    | none => exact ih h.2 l ds

theorem nullable_mem (bs : List (Option (List Bool))) : Layer.nullableItem ∈ bs.map bitLayer ↔ bs.any Option.isSome = true := by
  rw [List.any_eq_true]
  simp only [List.mem_map]
  constructor
  · rintro ⟨b, hb, h⟩; refine ⟨b, hb, ?_⟩; cases b with
    | none => simp [bitLayer] at h
    | some _ => rfl
  · rintro ⟨b, hb, h⟩; refine ⟨b, hb, ?_⟩; simp [bitLayer, h]

theorem lens_children {V : Type} (p q : Nat) (cols : List (Col V)) (hok : ∀ c ∈ cols, ColOk p q c) :
    (((cols.map Col.child).map Arr.len).sum) = (flat (cols.flatMap Col.rows)).length := by
  rw [List.map_map, flat, List.length_flatMap]
  induction cols with
  | nil => rfl
  | cons c cols ih =>
    rw [List.map_cons, List.sum_cons, ih (fun x hx => hok x (by simp [hx])), List.flatMap_cons, List.map_append, List.sum_append]
    congr 1
    have h := hok c (by simp)
    simp only [Function.comp]
    rw [← cells_length q _ h.child, h.cells, flat, List.length_flatMap]

theorem flat_cols {V : Type} (p q : Nat) (cols : List (Col V)) (hok : ∀ c ∈ cols, ColOk p q c) :
    flat (cols.flatMap Col.rows) = (cols.map Col.child).flatMap Arr.cells := by
  induction cols with
  | nil => rfl
  | cons c cols ih =>
    have ih := ih (fun x hx => hok x (by simp [hx]))
    simp only [flat] at ih
    simp only [flat, List.flatMap_cons, List.flatMap_append, List.map_cons, ih, (hok c (by simp)).cells]

/-- The levels of a page of lists. -/
theorem serialize_cols {V : Type} (p q : Nat) (cols : List (Col V)) (hne : cols ≠ []) (hok : ∀ c ∈ cols, ColOk p q c)
    (hnn : ∀ c ∈ cols, ∀ b ∈ c.outer, NoNulls b) (hval : flat (cols.flatMap Col.rows) ≠ []) :
    ∃ (inner outer : List Layer) (nulls empties w : Bool) (rows : List (Option (List (Nat × V)))),
      serialize (cols.map Col.builder) = some (listPage inner outer nulls empties w rows) ∧
      cols.flatMap Col.rows = rows.map (Option.map (List.map (levelCell inner))) ∧
      (flat rows).map (·.2) = cols.flatMap (fun c => c.child.leaves) ∧
      ListOk inner outer nulls empties w rows ∧ inner.length = q + 1 ∧ outer.length = p ∧
      nulls = cols.any (fun c => c.desc.validity.isSome) ∧ empties = (cols.flatMap Col.rows).any isEmptyRow ∧
      ((∀ c ∈ cols, ∀ b ∈ c.outer, b = none) → defSum outer = 0) ∧
      ((cols.map Col.builder).any Builder.hasNulls = false → specialsOf (cols.flatMap Col.rows) 0 = [] → w = false) := by
  have hcok : ∀ a ∈ cols.map Col.child, a.Ok (List.replicate q .struct) := by
    intro a ha; obtain ⟨c, hc, rfl⟩ := List.mem_map.mp ha; exact (hok c hc).child
  have hbl : ∀ a ∈ cols.map Col.child, a.bitmaps.length = q + 1 := fun a ha => bitmaps_length q a (hcok a ha)
  have hlens := lens_children p q cols hok
  obtain ⟨bits, hbits, hD⟩ := concatLayers_cols p q cols hne hok
  obtain ⟨L, hL1, hL2⟩ := combined_cols p q cols hok _ hD
  have hfc := flat_cells q (cols.map Col.child) hcok
  rw [← flat_cols p q cols hok, hlens] at hfc
  rw [hlens] at hL2
  generalize hR : cols.flatMap Col.rows = R at *
  generalize hN : (flat R).length = N at *
  generalize hpb : pageBits (q + 1) (cols.map Col.child) = pb at *
  generalize hob : outerBits p cols = ob at *
  have hNpos : 0 < N := by
    rw [← hN]; exact List.length_pos_iff.mpr hval
  -- the rows with levels
  have hmk : (markAll pb 1 (List.replicate N 0)).length = N := by rw [markAll_length, List.length_replicate]
  have hlv : ((cols.map Col.child).flatMap Arr.leaves).length = N := by
    rw [← hlens, List.length_flatMap, List.map_map, List.map_map]
    congr 1
    apply List.map_congr_left
    intro c hc
    exact leaves_length q _ (hok c hc).child
  generalize hxs : (markAll pb 1 (List.replicate N 0)).zip ((cols.map Col.child).flatMap Arr.leaves) = xs
  have hxl : xs.length = (flat R).length := by rw [← hxs, List.length_zip, hmk, hlv, hN]; simp
  have hfst : xs.map (·.1) = markAll pb 1 (List.replicate N 0) := by
    rw [← hxs, List.map_fst_zip]; rw [hmk, hlv]; exact Nat.le_refl _
  have hsnd : xs.map (·.2) = (cols.map Col.child).flatMap Arr.leaves := by
    rw [← hxs, List.map_snd_zip]; rw [hmk, hlv]; exact Nat.le_refl _
  have hflatJ : flat (reshape R xs) = xs := flat_reshape R xs hxl
  have hRJ : R = (reshape R xs).map (Option.map (List.map (levelCell (pb.map bitLayer)))) := by
    rw [← reshape_map, ← hxs, ← zip_cells, ← hfc, reshape_flat]
  generalize hJ : reshape R xs = J at *
  -- the parts of the page
  have hany1 : cols.any (fun c => c.child.bitmaps.any Option.isSome) = pb.any Option.isSome := by
    have := any_bitmaps (cols.map Col.child) (q + 1) hbl
    rw [List.any_map, hpb] at this
    exact this
  have hany2 : cols.any (fun c => c.outer.any Option.isSome) = ob.any Option.isSome := by
    rw [← hob, any_outerBits p cols (fun c hc => (hok c hc).outer)]
  have hany : (cols.map Col.builder).any Builder.hasNulls = (pb.any Option.isSome || ob.any Option.isSome) := by
    rw [List.any_map, ← hany1, ← hany2, Bool.eq_iff_iff]
    simp only [Bool.or_eq_true, List.any_eq_true (p := fun c : Col V => c.child.bitmaps.any Option.isSome),
      List.any_eq_true (p := fun c : Col V => c.outer.any Option.isSome),
      List.any_eq_true (p := Builder.hasNulls ∘ Col.builder), Function.comp, builder_hasNulls]
    constructor
    · rintro ⟨c, hc, h | h⟩
      · exact Or.inr ⟨c, hc, h⟩
      · exact Or.inl ⟨c, hc, h⟩
    · rintro (⟨c, hc, h⟩ | ⟨c, hc, h⟩)
      · exact ⟨c, hc, Or.inr h⟩
      · exact ⟨c, hc, Or.inl h⟩
  have hobt : ∀ b, some b ∈ ob → b.all id = true := by
    intro b hb
    rw [← hob] at hb
    unfold outerBits at hb
    obtain ⟨j, hj, hjb⟩ := List.mem_map.mp hb
    have hj := List.mem_range.mp hj
    refine joinBits_true _ ?_ b hjb
    intro x hx
    obtain ⟨c, hc, rfl⟩ := List.mem_map.mp hx
    have hj' : j < c.outer.length := by rw [(hok c hc).outer]; exact hj
    simp only
    rw [join_getElem? _ _ hj']
    exact hnn c hc _ (List.getElem_mem hj')
  have hsp : specialsOf R 0 = specialsOf J 0 := by rw [hRJ, specialsOf_map]
  have hem : R.any isEmptyRow = J.any isEmptyRow := by rw [hRJ, anyEmpty_map]
  have hw0 : (pb.any Option.isSome || ob.any Option.isSome) = false → pb.any Option.isSome = false ∧ ob.any Option.isSome = false := by
    intro h; simpa using h
  refine ⟨pb.map bitLayer, ob.map bitLayer, cols.any (fun c => c.desc.validity.isSome), R.any isEmptyRow,
    (pb.any Option.isSome || ob.any Option.isSome) || decide (specialsOf R 0 ≠ []), J, ?_, hRJ, ?_, ?_, ?_, ?_, rfl, rfl, ?_, ?_⟩
  · cases cols with
    | nil => exact absurd rfl hne
    | cons c0 cs =>
      rw [List.map_cons, serialize, ← List.map_cons (f := Col.builder)]
      have hE : ((c0 :: cs).map Col.builder).all Builder.isEmpty = false := by
        rw [List.map_cons, List.all_cons, builder_isEmpty]; rfl
      have hO : ((c0 :: cs).map Col.builder).any Builder.hasOffsets = true := by
        rw [List.map_cons, List.any_cons, builder_hasOffsets]; rfl
      have hlenm : ((c0 :: cs).map Col.builder).mapM Builder.len = some (((c0 :: cs).map Col.child).map Arr.len) := by
        rw [mapM_some_iff, List.map_map, List.map_map, List.map_map]; rfl
      have hraw : c0.builder.raws.length = q + 1 + (1 + p) := by
        rw [← List.length_reverse, builder_reverse]
        simp [hbl c0.child (by simp), (hok c0 (by simp)).outer]; omega
      rw [if_neg (by rw [hE]; simp), hlenm, hraw, hL1]
      simp only
      rw [hL2, hany, hO, hlens, recordAll_append, recordAll_bits _ _ _ rfl rfl]
      · simp only [Option.bind_some, recordAll_append, Ctx.recordAll, Ctx.record, Ctx.recordOffsets, Ctx.new, ne_eq, not_true_eq_false,
          if_false, if_true]
        have hol := offsetsLoop_rows R [] 0 0 rfl
        rw [hN, List.nil_append, List.nil_append] at hol
        rw [hol]
        simp only [List.length_nil, Nat.zero_add]
        rw [hbits]
        rw [specialsLoop_rows _ _ (startsOf R 0 0) R _ 0 0 0 0 rfl (fun j => by rw [Nat.zero_add])]
        simp only [Option.bind_some]
        rw [recordAll_outer _ (startsOf R 0 0) ob _ rfl]
        · simp only [Ctx.build, Ctx.checkout, Bool.false_or, Nat.zero_add]
          rw [if_pos (by omega)]
          simp only [List.nil_append]
          generalize hanyv : (pb.any Option.isSome || ob.any Option.isSome) = any at *
          generalize hnulls : (c0 :: cs).any (fun c => c.desc.validity.isSome) = nulls at *
          have hdefs : (if any = true then some (markAll pb 1 (if any = true then List.replicate N 0 else [])) else none) =
              restDefs any (markAll pb 1 (List.replicate N 0)) := by
            cases any <;> rfl
          rw [hdefs]
          have hLf : flat (J.map (Option.map (List.map (·.1)))) = markAll pb 1 (List.replicate N 0) := by
            rw [flat_map, hflatJ, hfst]
          by_cases hs : specialsOf R 0 = []
          · have hrec : recordsOf (listLevels nulls (R.any isEmptyRow) (1 + defSum (pb.map bitLayer))).1
                (listLevels nulls (R.any isEmptyRow) (1 + defSum (pb.map bitLayer))).2 R 0 = [] := by
              apply List.length_eq_zero_iff.mp
              rw [recordsOf_length _ _ R 0 0, hs]; rfl
            rw [hrec]
            simp only [collapse, if_true, Option.some.injEq]
            have hns := no_specials (listLevels nulls (R.any isEmptyRow) (1 + defSum (pb.map bitLayer))).1
              (listLevels nulls (R.any isEmptyRow) (1 + defSum (pb.map bitLayer))).2 (J.map (Option.map (List.map (·.1)))) 0
              (by rw [specialsOf_map, ← hsp]; exact hs)
            rw [repOut_map, repIn_map] at hns
            have hrR : repIn R = repIn J := by rw [hRJ, repIn_map]
            simp only [listPage]
            rw [hns.1, hns.2, hLf, hrR]
            simp only [hs, ne_eq, not_true_eq_false, decide_false, Bool.or_false, restDefs, List.append_assoc, List.singleton_append]
          · have hrec : recordsOf (listLevels nulls (R.any isEmptyRow) (1 + defSum (pb.map bitLayer))).1
                (listLevels nulls (R.any isEmptyRow) (1 + defSum (pb.map bitLayer))).2 R 0 ≠ [] := by
              intro h0
              have h1 := recordsOf_length (listLevels nulls (R.any isEmptyRow) (1 + defSum (pb.map bitLayer))).1
                (listLevels nulls (R.any isEmptyRow) (1 + defSum (pb.map bitLayer))).2 R 0 0
              rw [h0] at h1
              exact hs (List.length_eq_zero_iff.mp h1.symm)
            simp only [collapse]
            rw [if_neg hrec]
            have hcl := collapseLoop_rows any (listLevels nulls (R.any isEmptyRow) (1 + defSum (pb.map bitLayer))).1
              (listLevels nulls (R.any isEmptyRow) (1 + defSum (pb.map bitLayer))).2 (J.map (Option.map (List.map (·.1)))) 0 [] [] false
              (by simp) (by
                intro h0 d hd
                rw [hLf] at hd
                subst h0
                rw [markAll_none pb (hw0 rfl).1] at hd
                exact List.eq_of_mem_replicate hd)
            rw [hLf, repIn_map, recordsOf_map, repOut_map] at hcl
            have hrR : repIn R = repIn J := by rw [hRJ, repIn_map]
            have hrec2 : recordsOf (listLevels nulls (R.any isEmptyRow) (1 + defSum (pb.map bitLayer))).1
                (listLevels nulls (R.any isEmptyRow) (1 + defSum (pb.map bitLayer))).2 R 0 =
                recordsOf (listLevels nulls (R.any isEmptyRow) (1 + defSum (pb.map bitLayer))).1
                (listLevels nulls (R.any isEmptyRow) (1 + defSum (pb.map bitLayer))).2 J 0 := by
              have h9 := recordsOf_map (levelCell (pb.map bitLayer)) (listLevels nulls (R.any isEmptyRow) (1 + defSum (pb.map bitLayer))).1
                (listLevels nulls (R.any isEmptyRow) (1 + defSum (pb.map bitLayer))).2 J 0
              rw [← hRJ] at h9
              exact h9
            rw [hrec2, hrR, hcl]
            simp only [listPage, Option.map_some, hs, ne_eq, not_false_eq_true, decide_true, Bool.or_true, if_true, List.reverse_nil, List.nil_append,
              List.append_assoc, List.singleton_append]
        · intro h0
          simp only
          rw [h0, Bool.or_true]
          simp only [if_true]
          intro h1
          have : (markAll pb 1 (List.replicate N 0)).length = 0 := congrArg List.length h1
          omega
        · exact hobt
      · intro h0 h1
        rw [h0] at h1
        have := congrArg List.length h1
        simp [Ctx.new] at this; omega
  · rw [hflatJ, hsnd, List.flatMap_map]
  · refine ⟨?_, ?_, ?_, ?_, ?_, ?_, ?_, ?_⟩
    · intro l hl; obtain ⟨b, _, rfl⟩ := List.mem_map.mp hl; exact bitLayer_item b
    · intro l hl; obtain ⟨b, _, rfl⟩ := List.mem_map.mp hl; exact bitLayer_item b
    · intro e he
      rw [hflatJ] at he
      have : e.1 ∈ markAll pb 1 (List.replicate N 0) := by rw [← hfst]; exact List.mem_map_of_mem he
      exact markAll_le pb N e.1 this
    · intro h0 r hr
      have h1 : ∀ r ∈ R, r.isSome = true := by
        intro r hr
        rw [← hR] at hr
        obtain ⟨c, hc, hrc⟩ := List.mem_flatMap.mp hr
        refine (hok c hc).nulls ?_ r hrc
        have := List.any_eq_false.mp h0 c hc
        simpa using this
      have h2 := h1 (r.map (List.map (levelCell (pb.map bitLayer)))) (by rw [hRJ]; exact List.mem_map_of_mem hr)
      simpa using h2
    · intro h0; rw [← hem]; exact h0
    · intro h0; rw [(nullable_mem pb).mp h0]; rfl
    · intro h0; rw [(nullable_mem ob).mp h0]; simp
    · intro h0
      simp only [Bool.or_eq_false_iff, decide_eq_false_iff_not, ne_eq, Decidable.not_not] at h0
      rw [← hsp]; exact h0.2
  · rw [List.length_map, ← hpb]; simp [pageBits]
  · rw [List.length_map, ← hob]; simp [outerBits]
  · intro h0
    have : ob.any Option.isSome = false := by
      rw [← hany2, List.any_eq_false]
      intro c hc
      simp only [Bool.not_eq_true, List.any_eq_false]
      intro b hb
      rw [h0 c hc b hb]
      simp
    unfold defSum
    rw [List.map_map]
    have hz : ob.map (Layer.defLevels ∘ bitLayer) = ob.map (fun _ => 0) := by
      apply List.map_congr_left
      intro b hb
      have := List.any_eq_false.mp this b hb
      cases b with
      | none => rfl
      | some _ => simp at this
    rw [hz]
    have gen : ∀ l : List (Option (List Bool)), (l.map (fun _ => 0)).sum = 0 := by
      intro l
      induction l with
      | nil => rfl
      | cons b bs ih => rw [List.map_cons, List.sum_cons, ih]
    exact gen ob
  · intro h0 h1
    rw [hany] at h0
    rw [h0, h1]
    rfl

end Verif.RepDef
