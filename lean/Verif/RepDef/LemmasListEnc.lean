import Verif.RepDef.LemmasList
/-!
# Lemmas on levels: the levels of a page of lists
-/
namespace Verif.RepDef
open Verif.Mini (Layer RepDefs)

/-! ### Structs around lists -/

/-- The array inside of `p` structs. -/
def Arr.inside {V : Type} : Nat → Arr V → Arr V
  | 0, a => a
  | p + 1, .struct c _ => c.inside p
  | _ + 1, a => a

/-- The bitmaps of the `p` outermost structs, the innermost first. -/
def Arr.around {V : Type} : Nat → Arr V → List (Option (List Bool))
  | 0, _ => []
  | p + 1, .struct c bits => c.around p ++ [bits]
  | _ + 1, _ => []

/-- A cell inside of `p` structs that are not null. -/
def wrap {V : Type} : Nat → Val V → Val V
  | 0, x => x
  | p + 1, x => .valid (wrap p x)

/-- No struct is null. -/
def NoNulls (bits : Option (List Bool)) : Prop := ∀ bs, bits = some bs → bs.all id = true

theorem outer_facts {V : Type} (p : Nat) (ks : List Kind) : ∀ a : Arr V, a.Ok (List.replicate p .struct ++ ks) →
    (a.inside p).Ok ks ∧ (a.around p).length = p ∧ (∀ b ∈ a.around p, BitsOk b (a.inside p).len) ∧ (a.inside p).len = a.len := by
  induction p with
  | zero => intro a h; exact ⟨h, rfl, by simp [Arr.around], rfl⟩
  | succ p ih =>
    intro a h
    cases a <;> simp only [List.replicate_succ, List.cons_append, Arr.Ok] at h
    rename_i c bits
    obtain ⟨h1, h2, h3, h4⟩ := ih c h.1
    refine ⟨h1, by simp [Arr.around, h2], ?_, h4⟩
    intro b hb
    simp only [Arr.around, List.mem_append, List.mem_singleton] at hb
    rcases hb with hb | hb
    · exact h3 b hb
    · subst hb; simp only [Arr.inside]; rw [h4]; exact h.2

theorem outer_cells {V : Type} (p : Nat) (ks : List Kind) : ∀ a : Arr V, a.Ok (List.replicate p .struct ++ ks) →
    (a.inside p).cells.length = (a.inside p).len → (∀ b ∈ a.around p, NoNulls b) →
    a.cells = (a.inside p).cells.map (wrap p) ∧ a.cells.length = a.len := by
  induction p with
  | zero => intro a h hl _; exact ⟨by simp [Arr.inside, wrap], hl⟩
  | succ p ih =>
    intro a h hl hn
    cases a <;> simp only [List.replicate_succ, List.cons_append, Arr.Ok] at h
    rename_i c bits
    simp only [Arr.around, List.mem_append, List.mem_singleton] at hn
    simp only [Arr.inside] at hl ⊢
    obtain ⟨h1, h2⟩ := ih c h.1 hl (fun b hb => hn b (Or.inl hb))
    have hm : mask bits c.cells = c.cells.map .valid := by
      cases bits with
      | none => rfl
      | some bs =>
        simp only [mask]
        rw [zipWith_all _ _ (by rw [h.2 bs rfl, h2]) (hn _ (Or.inr rfl) bs rfl)]
    refine ⟨?_, ?_⟩
    · simp only [Arr.cells]
      rw [hm, h1, List.map_map]
      rfl
    · simp only [Arr.cells, Arr.len]
      rw [hm, List.length_map, h2]

theorem bitmaps_outer {V : Type} (p : Nat) (ks : List Kind) : ∀ a : Arr V, a.Ok (List.replicate p .struct ++ ks) →
    a.bitmaps = (a.inside p).bitmaps ++ a.around p := by
  induction p with
  | zero => intro a _; simp [Arr.inside, Arr.around]
  | succ p ih =>
    intro a h
    cases a <;> simp only [List.replicate_succ, List.cons_append, Arr.Ok] at h
    rename_i c bits
    simp only [Arr.bitmaps, Arr.inside, Arr.around]
    rw [ih c h.1, List.append_assoc]

theorem collect_outer {V : Type} (p : Nat) (ks : List Kind) :
    ∀ (a : Arr V) (b : Builder), a.Ok (List.replicate p .struct ++ ks) → b.fits a.len = true →
      ∃ b', collect (List.replicate p .struct ++ ks) a b = collect ks (a.inside p) b' ∧
        b'.raws = b.raws ++ (a.around p).reverse.map (Raw.validity · a.len) ∧ b'.fits a.len = true := by
  induction p with
  | zero => intro a b h hf; exact ⟨b, rfl, by simp [Arr.around], hf⟩
  | succ p ih =>
    intro a b h hf
    cases a <;> simp only [List.replicate_succ, List.cons_append, Arr.Ok] at h
    rename_i c bits
    simp only [List.replicate_succ, List.cons_append, collect, Arr.inside, Arr.around, Arr.len] at hf ⊢
    rw [addBits_ok b bits c.len h.2 hf]
    simp only
    obtain ⟨b', h1, h2, h3⟩ := ih c ⟨b.raws ++ [.validity bits c.len], some c.len⟩ h.1 (by simp [Builder.fits])
    exact ⟨b', h1, by rw [h2]; simp, h3⟩

/-! ### What is collected from an array of lists -/

/-- What the encoders collect from an array: the structs around, the lists, the arrays under them; with the rows. -/
structure Col (V : Type) where
  outer : List (Option (List Bool))
  desc : OffsetDesc
  child : Arr V
  rows : List (Option (List (Val V)))

def Col.builder {V : Type} (c : Col V) : Builder :=
  ⟨c.outer.reverse.map (Raw.validity · c.rows.length) ++ .offsets c.desc :: c.child.bitmaps.reverse.map (Raw.validity · c.child.len),
    some c.child.len⟩

structure ColOk {V : Type} (p q : Nat) (c : Col V) : Prop where
  outer : c.outer.length = p
  outerOk : ∀ b ∈ c.outer, BitsOk b c.rows.length
  offsets : c.desc.offsets = 0 :: sums c.rows 0
  specials : c.desc.specials = specialsOf c.rows 0
  empties : c.desc.hasEmpty = c.rows.any isEmptyRow
  nulls : c.desc.validity = none → ∀ r ∈ c.rows, r.isSome = true
  num : c.desc.numValues = c.rows.length
  child : c.child.Ok (List.replicate q .struct)
  cells : c.child.cells = flat c.rows

/-- The rows of an array of lists inside of structs. -/
def Arr.rowsIn {V : Type} (p : Nat) (a : Arr V) : List (Option (List (Val V))) :=
  match a.inside p with
  | .list offs c bits => rowsWith c.cells offs (bitsOr bits (offs.length - 1))
  | _ => []

theorem rowsWith_some {A : Type} (l : List A) : ∀ (offs : List Nat) (bs : List Bool), bs.all id = true →
    ∀ r ∈ rowsWith l offs bs, r.isSome = true
  | [], _, _ => by simp [rowsWith]
  | [_], _, _ => by simp [rowsWith]
  | _ :: _ :: _, [], _ => by simp [rowsWith]
  | a :: b :: rest, v :: vs, h => by
    simp only [List.all_cons, id, Bool.and_eq_true] at h
    intro r hr
    simp only [rowsWith, h.1, if_true, List.mem_cons] at hr
    rcases hr with hr | hr
    · subst hr; rfl
    · exact rowsWith_some l (b :: rest) vs (by simpa using h.2) r hr

theorem collect_list {V : Type} (p q : Nat) (a : Arr V) (h : a.Ok (List.replicate p .struct ++ .list :: List.replicate q .struct)) :
    ∃ c : Col V, collect (List.replicate p .struct ++ .list :: List.replicate q .struct) a Builder.empty = some (c.builder, c.child.leaves) ∧
      ColOk p q c ∧ c.rows = a.rowsIn p ∧ c.outer = a.around p ∧ c.rows.length = a.len ∧
      c.desc.validity = (a.bitmaps[q + 1]?).join ∧
      ((∀ b ∈ a.around p, NoNulls b) → a.cells = c.rows.map fun r => wrap p (rowCell r)) := by
  obtain ⟨h1, h2, h3, h4⟩ := outer_facts p _ a h
  obtain ⟨b', h5, h6, h7⟩ := collect_outer p _ a Builder.empty h rfl
  rw [h5]
  cases ha : a.inside p <;> rw [ha] at h1 h3 h4 <;> simp only [Arr.Ok] at h1
  rename_i offs c bits
  obtain ⟨hv1, hv2⟩ := listValues_ok q offs bits c h1
  obtain ⟨hc, hb, hne, hr, hlast⟩ := h1
  have hcl := cells_length q c hc
  have hbl : (bitsOr bits (offs.length - 1)).length = offs.length - 1 := by
    cases bits with
    | none => simp [bitsOr]
    | some bs => simpa [bitsOr] using hb bs rfl
  have hn : (norm offs bits).offsets = sums (rowsWith c.cells offs (bitsOr bits (offs.length - 1))) 0 ∧
      (norm offs bits).specials = specialsOf (rowsWith c.cells offs (bitsOr bits (offs.length - 1))) 0 ∧
      (norm offs bits).hasEmpty = (rowsWith c.cells offs (bitsOr bits (offs.length - 1))).any isEmptyRow := by
    rw [norm_bitsOr]
    cases offs with
    | nil => exact absurd rfl hne
    | cons x rest => exact normWith_rows c.cells rest x _ 0 0 (by rw [hbl]; simp) hr (by rw [hcl]; exact hlast)
  have hrl : (rowsWith c.cells offs (bitsOr bits (offs.length - 1))).length = a.len := by
    rw [rowsWith_length _ _ _ hbl, hbl, ← h4]; rfl
  have hfits : b'.fits (norm offs bits).offsets.length = true := by rw [hn.1, sums_length, hrl]; exact h7
  have hin : a.rowsIn p = rowsWith c.cells offs (bitsOr bits (offs.length - 1)) := by simp only [Arr.rowsIn, ha]
  refine ⟨⟨a.around p, ⟨0 :: (norm offs bits).offsets, (norm offs bits).specials, bits, (norm offs bits).hasEmpty,
      (norm offs bits).offsets.length⟩, listValues offs bits c (norm offs bits).garbage,
      rowsWith c.cells offs (bitsOr bits (offs.length - 1))⟩, ?_, ?_, hin.symm, rfl, hrl, ?_, ?_⟩
  · simp only [collect, Builder.addOffsets]
    rw [if_pos hfits]
    simp only
    have hlen : (listValues offs bits c (norm offs bits).garbage).len = (0 :: (norm offs bits).offsets).getLastD 0 := by
      rw [hn.1, sums_last, ← cells_length q _ hv1, hv2]; simp
    rw [collect_chain q _ _ hv1 (by simp only [Builder.fits]; rw [hlen]; simp)]
    simp only [Col.builder, h6, Builder.empty, hrl, List.nil_append, List.append_assoc, List.singleton_append]
  · refine ⟨h2, ?_, ?_, hn.2.1, hn.2.2, ?_, ?_, hv1, hv2⟩
    · intro b hb; simp only; rw [hrl, ← h4]; exact h3 b hb
    · simp only; rw [hn.1]
    · intro h0
      simp only at h0
      subst h0
      apply rowsWith_some
      simp [bitsOr]
    · simp only; rw [hn.1, sums_length]
  · rw [bitmaps_outer p _ a h, ha]
    simp only [Arr.bitmaps]
    rw [List.append_assoc, List.getElem?_append_right (by rw [bitmaps_length q c hc]; exact Nat.le_refl _), bitmaps_length q c hc]
    simp
  · intro hnn
    have hcells := list_cells offs c bits hb
    rw [← ha] at hcells
    have hlen2 : (a.inside p).cells.length = (a.inside p).len := by rw [hcells, List.length_map, hrl, ha, ← h4]
    rw [(outer_cells p _ a h hlen2 hnn).1, hcells, List.map_map]
    rfl

/-! ### Rows cut by the shape of others -/

def reshape {A B : Type} : List (Option (List A)) → List B → List (Option (List B))
  | [], _ => []
  | none :: rs, xs => none :: reshape rs xs
  | some r :: rs, xs => some (xs.take r.length) :: reshape rs (xs.drop r.length)

theorem reshape_flat {A : Type} : ∀ rows : List (Option (List A)), reshape rows (flat rows) = rows
  | [] => rfl
  | none :: rs => by
    have := reshape_flat rs
    simp only [flat] at this
    simp [reshape, flat, rowVals, this]
  | some r :: rs => by
    have := reshape_flat rs
    simp only [flat] at this
    simp [reshape, flat, rowVals, this]

theorem reshape_map {A B C : Type} (f : B → C) : ∀ (rows : List (Option (List A))) (xs : List B),
    reshape rows (xs.map f) = (reshape rows xs).map (Option.map (List.map f))
  | [], _ => rfl
  | none :: rs, xs => by simp [reshape, reshape_map f rs xs]
  | some r :: rs, xs => by
    have := reshape_map f rs (xs.drop r.length)
    simp only [List.map_drop] at this
    simp [reshape, List.map_take, this]

theorem flat_some {A : Type} (r : List A) (rs : List (Option (List A))) : flat (some r :: rs) = r ++ flat rs := rfl

theorem flat_reshape {A B : Type} : ∀ (rows : List (Option (List A))) (xs : List B), xs.length = (flat rows).length →
    flat (reshape rows xs) = xs
  | [], xs, h => by simp only [flat, List.flatMap_nil, List.length_nil, List.length_eq_zero_iff] at h; simp [reshape, flat, h]
  | none :: rs, xs, h => by
    have := flat_reshape rs xs (by simpa [flat, rowVals] using h)
    simp only [flat] at this
    simpa [reshape, flat, rowVals] using this
  | some r :: rs, xs, h => by
    rw [flat_some, List.length_append] at h
    rw [reshape, flat_some, flat_reshape rs (xs.drop r.length) (by rw [List.length_drop]; omega), List.take_append_drop]

theorem flat_map {A B : Type} (f : A → B) (rows : List (Option (List A))) :
    flat (rows.map (Option.map (List.map f))) = (flat rows).map f := by
  induction rows with
  | nil => rfl
  | cons r rs ih =>
    simp only [flat] at ih
    simp only [flat, List.map_cons, List.flatMap_cons, ih, List.map_append]
    cases r <;> simp [rowVals]

theorem sums_map {A B : Type} (f : A → B) : ∀ (rows : List (Option (List A))) (k : Nat),
    sums (rows.map (Option.map (List.map f))) k = sums rows k
  | [], _ => rfl
  | r :: rs, k => by
    have h : (rowVals (Option.map (List.map f) r)).length = (rowVals r).length := by cases r <;> simp [rowVals]
    simp only [List.map_cons, sums, h, sums_map f rs]

theorem specialsOf_map {A B : Type} (f : A → B) : ∀ (rows : List (Option (List A))) (i : Nat),
    specialsOf (rows.map (Option.map (List.map f))) i = specialsOf rows i
  | [], _ => rfl
  | none :: rs, i => by simp [specialsOf, specialsOf_map f rs]
  | some [] :: rs, i => by simp [specialsOf, specialsOf_map f rs]
  | some (x :: xs) :: rs, i => by simp [specialsOf, specialsOf_map f rs]

theorem repOut_map {A B : Type} (f : A → B) : ∀ (rows : List (Option (List A))),
    repOut (rows.map (Option.map (List.map f))) = repOut rows
  | [] => rfl
  | none :: rs => by simp [repOut, repOut_map f rs]
  | some [] :: rs => by simp [repOut, repOut_map f rs]
  | some (x :: xs) :: rs => by simp [repOut, repOut_map f rs]

theorem anyEmpty_map {A B : Type} (f : A → B) (rows : List (Option (List A))) :
    (rows.map (Option.map (List.map f))).any isEmptyRow = rows.any isEmptyRow := by
  rw [List.any_map]
  congr 1
  funext r
  cases r with
  | none => rfl
  | some r => cases r <;> rfl

theorem recordsOf_length {A : Type} (nl el : Nat) : ∀ (rows : List (Option (List A))) (i j : Nat),
    (recordsOf nl el rows i).length = (specialsOf rows j).length
  | [], _, _ => rfl
  | none :: rs, i, j => by simp [recordsOf, specialsOf, recordsOf_length nl el rs (i + 1) (j + 1)]
  | some [] :: rs, i, j => by simp [recordsOf, specialsOf, recordsOf_length nl el rs (i + 1) (j + 1)]
  | some (x :: xs) :: rs, i, j => by simp [recordsOf, specialsOf, recordsOf_length nl el rs _ (j + 1)]

/-- Without null and empty lists nothing has to be put among the levels. -/
theorem no_specials (nl el : Nat) : ∀ (rows : List (Option (List Nat))) (i : Nat), specialsOf rows i = [] →
    repOut rows = repIn rows ∧ defOut nl el rows = flat rows
  | [], _, _ => ⟨rfl, rfl⟩
  | none :: rs, i, h => by simp [specialsOf] at h
  | some [] :: rs, i, h => by simp [specialsOf] at h
  | some (x :: xs) :: rs, i, h => by
    simp only [specialsOf] at h
    obtain ⟨h1, h2⟩ := no_specials nl el rs (i + 1) h
    simp [repOut, repIn, defOut, flat, rowVals, h1, h2]

/-! ### A page -/

/-- The levels and layers of a page of lists, from its rows; each item has its definition level. -/
def listPage {V : Type} (inner outer : List Layer) (nulls empties w : Bool) (rows : List (Option (List (Nat × V)))) : RepDefs :=
  ⟨some (repOut rows),
    if w then some (defOut (listLevels nulls empties (1 + defSum inner)).1 (listLevels nulls empties (1 + defSum inner)).2
      (rows.map (Option.map (List.map (·.1))))) else none,
    inner ++ listLayer nulls empties :: outer⟩

/-- The cell of a row with levels. -/
def levelCell {V : Type} (inner : List Layer) (e : Nat × V) : Val V := cell inner 0 e.1 (.item e.2)

def rowOf {V : Type} (inner : List Layer) (r : Option (List (Nat × V))) : Val V := rowCell (r.map (List.map (levelCell inner)))

/-- The bitmaps around of some arrays, put together layer by layer. -/
def outerBits {V : Type} (p : Nat) (cols : List (Col V)) : List (Option (List Bool)) :=
  (List.range p).map fun j => joinBits (cols.map fun c => ((c.outer[j]?).join, c.rows.length))

theorem joinBits_true (bs : List (Option (List Bool) × Nat)) (h : ∀ x ∈ bs, NoNulls x.1) : NoNulls (joinBits bs) := by
  intro out hout
  unfold joinBits at hout
  split at hout
  · simp only [Option.some.injEq] at hout
    subst hout
    rw [List.all_flatMap, List.all_eq_true]
    intro x hx
    cases hb : x.1 with
    | none => simp
    | some y => simpa using h x hx y hb
  · simp at hout

theorem builder_hasNulls {V : Type} (c : Col V) : c.builder.hasNulls = (c.outer.any Option.isSome || c.child.bitmaps.any Option.isSome) := by
  unfold Builder.hasNulls Col.builder
  rw [List.any_append, List.any_cons]
  simp only [List.any_map, List.any_reverse, Bool.false_or]
  congr 1 <;> · congr 1; funext b; cases b <;> rfl

theorem builder_hasOffsets {V : Type} (c : Col V) : c.builder.hasOffsets = true := by
  unfold Builder.hasOffsets Col.builder
  simp

theorem builder_isEmpty {V : Type} (c : Col V) : c.builder.isEmpty = false := by
  unfold Builder.isEmpty Col.builder
  rw [List.all_append, List.all_cons]
  simp

theorem builder_reverse {V : Type} (c : Col V) : c.builder.raws.reverse =
    c.child.bitmaps.map (Raw.validity · c.child.len) ++ .offsets c.desc :: c.outer.map (Raw.validity · c.rows.length) := by
  simp [Col.builder, ← List.map_reverse, List.append_assoc]

theorem repIn_map {A B : Type} (f : A → B) : ∀ (rows : List (Option (List A))),
    repIn (rows.map (Option.map (List.map f))) = repIn rows
  | [] => rfl
  | none :: rs => by simp [repIn, repIn_map f rs]
  | some [] :: rs => by simp [repIn, repIn_map f rs]
  | some (x :: xs) :: rs => by simp [repIn, repIn_map f rs]

theorem recordsOf_map {A B : Type} (f : A → B) (nl el : Nat) : ∀ (rows : List (Option (List A))) (i : Nat),
    recordsOf nl el (rows.map (Option.map (List.map f))) i = recordsOf nl el rows i
  | [], _ => rfl
  | none :: rs, i => by simp [recordsOf, recordsOf_map f nl el rs]
  | some [] :: rs, i => by simp [recordsOf, recordsOf_map f nl el rs]
  | some (x :: xs) :: rs, i => by simp [recordsOf, recordsOf_map f nl el rs]

theorem any_isSome_joinBits (bs : List (Option (List Bool) × Nat)) : (joinBits bs).isSome = bs.any (fun x => x.1.isSome) := by
  unfold joinBits
  split
  · rename_i h; simp [h]
  · rename_i h; simp only [Bool.not_eq_true] at h; simp [h]

theorem any_outerBits {V : Type} (p : Nat) (cols : List (Col V)) (h : ∀ c ∈ cols, c.outer.length = p) :
    (outerBits p cols).any Option.isSome = cols.any fun c => c.outer.any Option.isSome := by
  rw [Bool.eq_iff_iff]
  simp only [outerBits, List.any_map, List.any_eq_true, List.mem_range, Function.comp, any_isSome_joinBits]
  constructor
  · rintro ⟨j, hj, c, hc, h1⟩
    have hj' : j < c.outer.length := by rw [h c hc]; exact hj
    rw [join_getElem? _ _ hj'] at h1
    exact ⟨c, hc, _, List.getElem_mem hj', h1⟩
  · rintro ⟨c, hc, b, hb, h1⟩
    obtain ⟨j, hj, rfl⟩ := List.getElem_of_mem hb
    exact ⟨j, by rw [← h c hc]; exact hj, c, hc, by rw [join_getElem? _ _ hj]; exact h1⟩

/-- Putting the list layers of arrays together. -/
theorem concatLayers_cols {V : Type} (p q : Nat) (cols : List (Col V)) (hne : cols ≠ []) (hok : ∀ c ∈ cols, ColOk p q c) :
    ∃ bits, bits.isSome = cols.any (fun c => c.desc.validity.isSome) ∧
      concatLayers (cols.map fun c => Raw.offsets c.desc) =
        some (.offsets ⟨0 :: sums (cols.flatMap Col.rows) 0, specialsOf (cols.flatMap Col.rows) 0, bits,
          (cols.flatMap Col.rows).any isEmptyRow, (cols.flatMap Col.rows).length⟩) := by
  cases cols with
  | nil => exact absurd rfl hne
  | cons c cols =>
    refine ⟨concatBits ((c :: cols).map fun c => Raw.offsets c.desc), ?_, ?_⟩
    · unfold concatBits
      rw [List.any_map, show (Raw.hasNulls ∘ fun c : Col V => Raw.offsets c.desc) = fun c => c.desc.validity.isSome from rfl]
      cases h : (c :: cols).any fun c => c.desc.validity.isSome <;> simp
    · have hm : ((c :: cols).map fun c => Raw.offsets c.desc).mapM Raw.offsets? = some ((c :: cols).map Col.desc) := by
        rw [mapM_some_iff, List.map_map, List.map_map]; rfl
      have hco := concatOffsets_rows ((c :: cols).map fun c => (c.desc, c.rows)) [] (by
        intro x hx
        obtain ⟨y, hy, rfl⟩ := List.mem_map.mp hx
        exact ⟨(hok y hy).offsets, (hok y hy).specials⟩)
      simp only [List.map_map, List.flatMap_map, List.nil_append] at hco
      rw [List.map_cons, concatLayers, ← List.map_cons (f := fun c : Col V => Raw.offsets c.desc), hm]
      simp only
      rw [show [0] = 0 :: sums ([] : List (Option (List (Val V)))) 0 from rfl,
        show ([] : List Special) = specialsOf ([] : List (Option (List (Val V)))) 0 from rfl]
      rw [show (c :: cols).map Col.desc = (c :: cols).map ((fun x => x.1) ∘ fun c => (c.desc, c.rows)) from rfl, hco]
      congr 3
      · rw [List.any_map, List.any_flatMap]
        rw [Bool.eq_iff_iff]
        simp only [List.any_eq_true, Function.comp]
        constructor
        · rintro ⟨y, hy, h1⟩
          refine ⟨y, hy, ?_⟩
          have h2 := (hok y hy).empties
          rw [h1] at h2
          rw [← List.any_eq_true]
          exact h2.symm
        · rintro ⟨y, hy, h1⟩
          refine ⟨y, hy, ?_⟩
          rw [(hok y hy).empties]
          rw [List.any_eq_true]
          exact h1
      · rw [List.map_map, List.length_flatMap]
        congr 1
        apply List.map_congr_left
        intro y hy
        exact (hok y hy).num

theorem map_range_add {A : Type} (g : Nat → A) (m n : Nat) :
    (List.range (m + n)).map g = (List.range m).map g ++ (List.range n).map fun j => g (m + j) := by
  rw [List.range_add, List.map_append, List.map_map]
  rfl

/-- The layers of the builders of arrays of lists put together. -/
theorem combined_cols {V : Type} (p q : Nat) (cols : List (Col V)) (hok : ∀ c ∈ cols, ColOk p q c) (D : OffsetDesc)
    (hD : concatLayers (cols.map fun c => Raw.offsets c.desc) = some (.offsets D)) :
    ∃ L, (List.range (q + 1 + (1 + p))).mapM (combined (cols.map Col.builder)) = some L ∧
      L.reverse = (pageBits (q + 1) (cols.map Col.child)).map (Raw.validity · ((cols.map Col.child).map Arr.len).sum) ++
        ([.offsets D] ++ (outerBits p cols).map (Raw.validity · (cols.map fun c => c.rows.length).sum)) := by
  have hcb : ∀ c ∈ cols, c.child.bitmaps.length = q + 1 := fun c hc => bitmaps_length q _ (hok c hc).child
  obtain ⟨L, h1, h2⟩ := combined_all (cols.map Col.builder) (q + 1 + (1 + p)) (by
      intro b hb
      obtain ⟨c, hc, rfl⟩ := List.mem_map.mp hb
      have := builder_reverse c
      rw [← List.length_reverse, this]
      simp [hcb c hc, (hok c hc).outer]; omega)
    (fun j => if j < q + 1 then .validity (layerBits (cols.map Col.child) j) ((cols.map Col.child).map Arr.len).sum
      else if j = q + 1 then .offsets D
      else .validity (joinBits (cols.map fun c => ((c.outer[j - (q + 2)]?).join, c.rows.length))) (cols.map fun c => c.rows.length).sum)
    (by
      intro j hj
      by_cases hj1 : j < q + 1
      · refine ⟨cols.map fun c => .validity (c.child.bitmaps[j]?).join c.child.len, ?_, ?_⟩
        · rw [mapM_some_iff, List.map_map, List.map_map]
          apply List.map_congr_left
          intro c hc
          have hjx : j < c.child.bitmaps.length := by rw [hcb c hc]; exact hj1
          simp only [Function.comp, builder_reverse]
          rw [List.getElem?_append_left (by simpa using hjx), List.getElem?_map, join_getElem? _ _ hjx, List.getElem?_eq_getElem hjx]
          rfl
        · rw [if_pos hj1]
          have := concatLayers_validity (cols.map fun c => ((c.child.bitmaps[j]?).join, c.child.len))
          rw [List.map_map, List.map_map] at this
          rw [layerBits, List.map_map, List.map_map]
          exact this
      · rw [if_neg hj1]
        by_cases hj2 : j = q + 1
        · refine ⟨cols.map fun c => .offsets c.desc, ?_, ?_⟩
          · rw [mapM_some_iff, List.map_map, List.map_map]
            apply List.map_congr_left
            intro c hc
            simp only [Function.comp, builder_reverse]
            rw [List.getElem?_append_right (by simp [hcb c hc, hj2])]
            simp [hcb c hc, hj2]
          · rw [if_pos hj2]; exact hD
        · rw [if_neg hj2]
          refine ⟨cols.map fun c => .validity (c.outer[j - (q + 2)]?).join c.rows.length, ?_, ?_⟩
          · rw [mapM_some_iff, List.map_map, List.map_map]
            apply List.map_congr_left
            intro c hc
            have hjx : j - (q + 2) < c.outer.length := by rw [(hok c hc).outer]; omega
            simp only [Function.comp, builder_reverse]
            rw [List.getElem?_append_right (by simp [hcb c hc]; omega), List.length_map, hcb c hc,
              show j - (q + 1) = (j - (q + 2)) + 1 by omega, List.getElem?_cons_succ, List.getElem?_map, join_getElem? _ _ hjx,
              List.getElem?_eq_getElem hjx]
            rfl
          · have := concatLayers_validity (cols.map fun c => ((c.outer[j - (q + 2)]?).join, c.rows.length))
            rw [List.map_map, List.map_map] at this
            exact this)
  refine ⟨L, h1, ?_⟩
  rw [h2, map_range_add _ (q + 1) (1 + p), map_range_add _ 1 p]
  congr 1
  · unfold pageBits
    rw [List.map_map (l := List.range (q + 1))]
    apply List.map_congr_left
    intro j hj
    rw [if_pos (List.mem_range.mp hj)]
    rfl
  · congr 1
    · simp
    · unfold outerBits
      rw [List.map_map (l := List.range p)]
      apply List.map_congr_left
      intro j _
      rw [if_neg (by omega), if_neg (by omega), show q + 1 + (1 + j) - (q + 2) = j by omega]
      rfl

end Verif.RepDef
