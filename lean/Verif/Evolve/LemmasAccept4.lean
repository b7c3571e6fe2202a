import Verif.Evolve.LemmasAccept3
namespace Verif.Evolve

theorem nullsOk_append : ∀ {s t : Tr Col}, NullsOk (s.append t) ↔ NullsOk s ∧ NullsOk t
  | .nil, t => by simp [Tr.append, NullsOk]
  | .cons c k r, t => by
    simp only [Tr.append, NullsOk, nullsOk_append (s := r)]
    constructor
    · rintro ⟨h1, h2, h3, h4⟩
      exact ⟨⟨h1, h2, h3⟩, h4⟩
    · rintro ⟨⟨h1, h2, h3⟩, h4⟩
      exact ⟨h1, h2, h3, h4⟩

theorem nullsOk_zip {β : Type} {f : Attr × β → Col} : ∀ {Z : Tr (Attr × β)}, (∀ x ∈ Z.flat, (f x).kind = x.1.kind) →
    (NullsOk (Z.map f) ↔ ∀ x ∈ strictZ Z, nullOk (f x).nullable (f x).vals = true)
  | .nil, _ => by simp [Tr.map, NullsOk, strictZ]
  | .cons x k r, h => by
    have ih1 := nullsOk_zip (f := f) (Z := k) (fun y hy => h y (by simp [Tr.flat, hy]))
    have ih2 := nullsOk_zip (f := f) (Z := r) (fun y hy => h y (by simp [Tr.flat, hy]))
    simp only [Tr.map, NullsOk, strictZ, List.mem_cons, List.mem_append, ih1, ih2, h x (by simp [Tr.flat])]
    constructor
    · rintro ⟨h1, h2, h3⟩ y (rfl | hy | hy)
      · exact h1
      · split at hy
        · rename_i hk
          exact h2 hk y hy
        · cases hy
      · exact h3 y hy
    · intro h1
      refine ⟨h1 x (Or.inl rfl), fun hk y hy => h1 y (Or.inr (Or.inl (by rw [if_pos hk]; exact hy))), fun y hy => h1 y (Or.inr (Or.inr hy))⟩

theorem table_nullsOk {d : Ds} (hi : Inv d) : NullsOk d.table.cols := by
  have h := (nullsOk_zip (f := fun x : Attr × Unit => absCol d.frags x.1) (Z := d.schema.map (fun a => (a, ()))) (fun x _ => rfl)).2 (by
    intro x hx
    refine absVals_nullOk hi (fun fr h => h) ?_
    have h1 : (strictZ (d.schema.map (fun a => (a, ())))).map Prod.fst = strict d.schema := by
      rw [strictZ_fst, Tr.map_map]
      congr 1
      exact Tr.map_id' (fun _ _ => rfl)
    rw [← h1]
    exact List.mem_map_of_mem hx)
  rw [Tr.map_map] at h
  exact h

/-- The cells a function computes, fragment by fragment. -/
theorem udf_cells {d : Ds} (hi : Inv d) {reads : List (List Nat)} (hr : ReadFine d.schema reads) {p : Tr Attr} (e : project d.schema reads .nil = some p)
    (fn : (List Nat → Option Cell) → Cell) :
    d.frags.flatMap (fun fr => (List.range (alive fr.phys fr.del).length).map (fun i => fn (rowAt (p.map (L fr)) i))) =
    (List.range d.table.n).map (fun j => fn (fun q => if Asked reads q then (colAt q d.table.cols).map (fun c => c.vals.getD j none) else none)) := by
  have := rows_concat (cell := fun fr i => fn (rowAt (p.map (L fr)) i)) d.frags 0
    (fun j => fn (fun q => if Asked reads q then (colAt q (d.schema.map (absCol d.frags))).map (fun c => c.vals.getD j none) else none)) (by
      intro pre fr post he i hi'
      congr 1
      funext q
      unfold rowAt
      rw [project_cols hi.schema.distinct hi.schema.shape (readFine_has hr) e (fun _ => rfl)]
      split
      · rw [colAt_field (fun _ => rfl), colAt_field (fun _ => rfl), Option.map_map, Option.map_map]
        congr 1
        funext t
        simp only [Function.comp, L, absCol, Attr.col, Nat.zero_add]
        split
        · rfl
        · rw [he, absVals_at _ hi']
      · rfl)
  simp only [Nat.zero_add] at this
  exact this

theorem nullOk_flatMap {α : Type} {b : Bool} {l : List α} {f : α → List Cell} : nullOk b (l.flatMap f) = true ↔ ∀ x ∈ l, nullOk b (f x) = true := by
  unfold nullOk
  cases b with
  | true => simp
  | false =>
    simp only [Bool.false_or, List.all_eq_true, List.mem_flatMap]
    constructor
    · intro h x hx y hy
      exact h y ⟨x, hx, hy⟩
    · rintro h y ⟨x, hx, hy⟩
      exact h x hx y hy

theorem addUdf_some {d : Ds} {reads : List (List Nat)} {out : Tr Out} (hi : Inv d) (hl : Live d) (hshape : ShapeOk (out.map Out.attr))
    (hdist : Distinct Attr.name (out.map Out.attr)) (hr : ReadFine d.schema reads) (hst : StoredFine d reads) :
    (addUdf d reads out).isSome ↔ NewNames d.table.cols (out.roots.map (fun o => o.1.name)) ∧ (∀ q ∈ reads, (colAt q d.table.cols).isSome) ∧
      NullsOk (specAdd reads out d.table) := by
  have hnames : (out.map Out.attr).roots.map (fun a => a.1.name) = out.roots.map (fun c => c.1.name) := by
    rw [Tr.roots_map, List.map_map]
    rfl
  rw [← hnames, ← namesNew_table]
  have hpaths : ∀ q ∈ reads, (colAt q d.table.cols).isSome := fun q hq => by rw [colAt_table]; exact (hr q hq).1
  unfold addUdf
  simp only
  by_cases hnew : namesNew d.schema (out.map Out.attr) = true
  case neg => simp [hnew]
  rw [if_pos hnew]
  obtain ⟨W, w1, w2, w3, w4, w5⟩ := addedSchema_zip Out.attr hi hnew hdist
  subst w2
  obtain ⟨p, e⟩ := project_some hi.schema.distinct hi.schema.shape (acc := .nil) trivial trivial hr
  obtain ⟨hsch, hfresh, hdW, hnames⟩ := added_inv hi w3 w4 w5 hshape hdist hnew
  have hx' : ∀ x ∈ W.flat, x.1.name = (Out.attr x.2).name ∧ x.1.kind = (Out.attr x.2).kind := by
    intro x hm
    have := w3 x hm
    constructor
    · rw [this]
    · rw [this]
  rw [e, w1, pbs_self Out.attr hx' hdW (fun u hu => by rw [byName_append_new hnames hu]; exact byName_of_mem (distinct_names hdW) hu)]
  simp only [Option.isSome_map]
  have hv : validate (W.map Prod.fst) = true := validate_ok w5 (fun i hii => by have := w4 i hii; have := maxFieldId_ge d; omega) hdW
  let C : Frag → Out → Col := fun fr o => ⟨o.name, o.kind, o.nullable, if o.kind = .struct then [] else
    (List.range (alive fr.phys fr.del).length).map (fun i => o.fn (rowAt (p.map (L fr)) i))⟩
  have hone : ∀ fr ∈ d.frags, ((updateFrag d.legacy d.schema p (W.map Prod.fst) (fun b => some ⟨b.n, outCols (W.map Prod.snd) b⟩) fr).isSome ↔
      ∀ x ∈ strictZ W, nullOk x.2.nullable (C fr x.2).vals = true) := by
    intro fr hfr
    have hread := read_asked hi hr hst e hfr
    have hfst : (W.map (fun x => (x.1, C fr x.2))).map Prod.fst = W.map Prod.fst := by rw [Tr.map_map]
    have hsnd : (W.map (fun x => (x.1, C fr x.2))).map Prod.snd = (W.map Prod.snd).map (C fr) := by rw [Tr.map_map, Tr.map_map]
    have := updateFrag_some (lg := d.legacy) (reads := p) (Z := W.map (fun x => (x.1, C fr x.2))) (f := fun b => some ⟨b.n, outCols (W.map Prod.snd) b⟩) (hi.frags fr hfr) (hl fr hfr)
      hread rfl (nb := ⟨(alive fr.phys fr.del).length, (W.map Prod.snd).map (C fr)⟩) rfl (by
        intro z hz
        simp only
        rw [← hsnd]
        refine colByName_zip ?_ ?_ hz
        · intro y hy
          rw [Tr.roots_map] at hy
          obtain ⟨u, hu, rfl⟩ := List.mem_map.1 hy
          exact (hx' u.1 (Tr.root_mem_flat hu)).1
        · have := distinct_names hdW
          rw [← hfst, Tr.roots_map, List.map_map] at this
          exact this) hsnd.symm (by
        intro x hxm
        rw [Tr.flat_map] at hxm
        obtain ⟨y, hy, rfl⟩ := List.mem_map.1 hxm
        simp only [C]
        exact ⟨fun hk => by rw [if_pos hk], fun hk => by rw [if_neg hk]; simp⟩) (by rw [hfst]; exact hv)
    rw [hfst] at this
    rw [this, strictZ_map]
    simp only [true_and, List.mem_map, forall_exists_index, and_imp]
    have hnl : ∀ x ∈ strictZ W, x.1.nullable = x.2.nullable := by
      intro x hxm
      rw [w3 x (strictZ_flat hxm)]
      rfl
    constructor
    · intro h x hxm
      have := h _ x hxm rfl
      simp only [hnl x hxm] at this
      exact this
    · rintro h x y hy rfl
      simp only [hnl y hy]
      exact h y hy
  rw [isSome_mapM]
  have hspec : NullsOk (specAdd reads (W.map Prod.snd) d.table) ↔ ∀ x ∈ strictZ W, ∀ fr ∈ d.frags, nullOk x.2.nullable (C fr x.2).vals = true := by
    unfold specAdd
    rw [nullsOk_append, Tr.map_map]
    have h1 := nullsOk_zip (Z := W) (f := fun x : Attr × Out => (⟨x.2.name, x.2.kind, x.2.nullable, if x.2.kind = .struct then [] else
      (List.range d.table.n).map (fun i => x.2.fn (fun p => if Asked reads p then (colAt p d.table.cols).map (fun c => c.vals.getD i none) else none))⟩ : Col))
      (fun x hxm => (hx' x hxm).2.symm)
    rw [h1]
    simp only [table_nullsOk hi, true_and]
    constructor
    · intro h x hxm fr hfr
      have h2 := h x hxm
      by_cases hk : x.2.kind = .struct
      · simp [C, hk, nullOk]
      · rw [if_neg hk, ← udf_cells hi hr e, nullOk_flatMap] at h2
        simp only [C, if_neg hk]
        exact h2 fr hfr
    · intro h x hxm
      by_cases hk : x.2.kind = .struct
      · simp [hk, nullOk]
      · rw [if_neg hk, ← udf_cells hi hr e, nullOk_flatMap]
        intro fr hfr
        have h2 := h x hxm fr hfr
        simp only [C, if_neg hk] at h2
        exact h2
  rw [hspec]
  constructor
  · intro h
    exact ⟨hnew, hpaths, fun x hxm fr hfr => (hone fr hfr).1 (h fr hfr) x hxm⟩
  · rintro ⟨_, _, h⟩ fr hfr
    exact (hone fr hfr).2 (fun x hxm => h x hxm fr hfr)

/-! ### All operations -/

theorem stepDs_some {cs : Casts} {past : List Ds} {d : Ds} {op : Op} (hi : Inv d) (hl : Live d) (hw : WfOp op) (hf : FineIf cs d op) :
    (stepDs cs past d op).isSome ↔ Sensible cs past.length d.table op := by
  cases op with
  | create lg b sizes => simp only [stepDs, Sensible, iff_true]; exact create_some hw.1 hw.2
  | append b sizes => exact append_some hi hw.1 hw.2
  | addUdf reads out => exact addUdf_some hi hl hw.1 hw.2 hf.1 hf.2
  | addNulls new => exact addNulls_some hi hf
  | addStream b sizes => exact addStream_some hi hl hw.1 hw.2
  | alter alts => exact rename_some hi hf.2 hf.1
  | drop paths => exact drop_some hi hf
  | delete dead => simp [stepDs, Sensible]
  | compact lo len sizes => simp only [stepDs, Sensible, iff_true]; exact compact_some hi
  | restore k => simp [stepDs, Sensible]

end Verif.Evolve
