import Verif.Evolve.LemmasWrite
namespace Verif.Evolve

/-! ### New ids -/

theorem le_foldl_max : ∀ (l : List Int) (m : Int), m ≤ l.foldl max m ∧ ∀ i ∈ l, i ≤ l.foldl max m
  | [], m => ⟨Int.le_refl _, by simp⟩
  | a :: l, m => by
    have h := le_foldl_max l (max m a)
    simp only [List.foldl_cons]
    refine ⟨by omega, ?_⟩
    intro i hi
    rcases List.mem_cons.1 hi with rfl | hi
    · have := h.1; omega
    · exact h.2 i hi

theorem le_maxId {l : List Int} {i : Int} (h : i ∈ l) : i ≤ maxId l := (le_foldl_max l (-1)).2 i h

theorem maxId_ge (l : List Int) : -1 ≤ maxId l := (le_foldl_max l (-1)).1

theorem le_maxFieldId {d : Ds} {i : Int} (h : i ∈ ids d.schema) : i ≤ d.maxFieldId := by
  have := le_maxId h
  unfold Ds.maxFieldId
  omega

theorem le_maxFieldId_frag {d : Ds} {fr : Frag} (hf : fr ∈ d.frags) {i : Int} (h : i ∈ fr.files.flatMap File.ids) : i ≤ d.maxFieldId := by
  have : i ∈ d.frags.flatMap (fun fr => fr.files.flatMap File.ids) := List.mem_flatMap.2 ⟨fr, hf, h⟩
  have := le_maxId this
  unfold Ds.maxFieldId
  omega

theorem maxFieldId_ge (d : Ds) : -1 ≤ d.maxFieldId := by
  have := maxId_ge (ids d.schema)
  unfold Ds.maxFieldId
  omega

theorem setIds_zip {β : Type} (g : β → Attr) (hg : ∀ b, (g b).id < 0) : ∀ (D : Tr β) (n : Int), ∃ (Z : Tr (Attr × β)) (m : Int),
    setIds n (D.map g) = (m, Z.map Prod.fst) ∧ D = Z.map Prod.snd ∧ (∀ x ∈ Z.flat, x.1 = { g x.2 with id := x.1.id }) ∧ n ≤ m ∧
    (∀ i ∈ ids (Z.map Prod.fst), n ≤ i ∧ i < m) ∧ (ids (Z.map Prod.fst)).Nodup
  | .nil, n => ⟨.nil, n, rfl, rfl, by simp [Tr.flat], Int.le_refl _, by simp [ids, Tr.map, Tr.flat], List.nodup_nil⟩
  | .cons b k r, n => by
    obtain ⟨Zk, m1, e1, d1, x1, l1, i1, n1⟩ := setIds_zip g hg k (n + 1)
    obtain ⟨Zr, m2, e2, d2, x2, l2, i2, n2⟩ := setIds_zip g hg r m1
    refine ⟨.cons ({ g b with id := n }, b) Zk Zr, m2, ?_, ?_, ?_, by omega, ?_, ?_⟩
    · simp only [Tr.map, setIds, if_pos (hg b), e1, e2]
    · simp only [Tr.map]
      rw [← d1, ← d2]
    · intro x hx
      simp only [Tr.flat, List.mem_cons, List.mem_append] at hx
      rcases hx with rfl | hx | hx
      · rfl
      · exact x1 x hx
      · exact x2 x hx
    · intro i hi
      simp only [Tr.map, ids_cons, List.mem_cons, List.mem_append] at hi
      rcases hi with rfl | hi | hi
      · omega
      · have := i1 i hi; omega
      · have := i2 i hi; omega
    · simp only [Tr.map, ids_cons]
      rw [List.nodup_cons, List.nodup_append]
      refine ⟨?_, n1, n2, ?_⟩
      · intro c
        rcases List.mem_append.1 c with c | c
        · have := i1 _ c; omega
        · have := i2 _ c; omega
      · intro i hi j hj e
        have := i1 i hi
        have := i2 j hj
        omega

theorem setIds_old : ∀ {s : Tr Attr}, (∀ i ∈ ids s, 0 ≤ i) → ∀ n, setIds n s = (n, s)
  | .nil, _, _ => rfl
  | .cons a k r, h, n => by
    simp only [ids_cons, List.mem_cons, List.mem_append] at h
    have h0 := h a.id (Or.inl rfl)
    have : ¬ a.id < 0 := by omega
    simp only [setIds, if_neg this]
    rw [setIds_old (fun i hi => h i (Or.inr (Or.inl hi)))]
    simp only
    rw [setIds_old (fun i hi => h i (Or.inr (Or.inr hi)))]

theorem setIds_append : ∀ {s : Tr Attr}, (∀ i ∈ ids s, 0 ≤ i) → ∀ n t, setIds n (s.append t) = ((setIds n t).1, s.append (setIds n t).2)
  | .nil, _, _, _ => rfl
  | .cons a k r, h, n, t => by
    simp only [ids_cons, List.mem_cons, List.mem_append] at h
    have h0 := h a.id (Or.inl rfl)
    have : ¬ a.id < 0 := by omega
    simp only [Tr.append, setIds, if_neg this]
    rw [setIds_old (fun i hi => h i (Or.inr (Or.inl hi)))]
    simp only
    rw [setIds_append (fun i hi => h i (Or.inr (Or.inr hi)))]

theorem byName_none {x : Nat} {s : Tr Attr} (h : ∀ t ∈ s.roots, t.1.name ≠ x) : byName x s = none := by
  cases e : byName x s with
  | none => rfl
  | some t => exact absurd (byName_mem e).2 (h t (byName_mem e).1)

theorem addFields_new : ∀ {new s : Tr Attr}, (∀ t ∈ s.roots, ∀ u ∈ new.roots, u.1.name ≠ t.1.name) → (new.roots.map (fun t => t.1.name)).Nodup →
    addFields s new = s.append (new.map (fun a => { a with id := -1 }))
  | .nil, s, _, _ => by simp [addFields, Tr.map, Tr.append_nil]
  | .cons a k r, s, h, hd => by
    simp only [Tr.roots, List.map_cons, List.nodup_cons, List.mem_map, not_exists, not_and] at hd
    unfold addFields
    rw [byName_none (fun t ht e => h t ht (a, k) (by simp [Tr.roots]) e.symm)]
    simp only [Option.isSome_none, Bool.false_eq_true, if_false]
    rw [addFields_new _ hd.2]
    · simp [Tr.append_assoc, Tr.map, Tr.append]
    · intro t ht u hu
      rw [Tr.roots_append, List.mem_append] at ht
      rcases ht with ht | ht
      · exact h t ht u (by simp [Tr.roots, hu])
      · simp only [Tr.roots, List.mem_singleton] at ht
        subst ht
        exact hd.1 u hu

theorem namesNew_iff {s new : Tr Attr} : namesNew s new = true ↔ ∀ t ∈ s.roots, ∀ u ∈ new.roots, u.1.name ≠ t.1.name := by
  unfold namesNew
  simp only [List.all_eq_true, Bool.not_eq_true', List.any_eq_false, beq_iff_eq]

/-- The fields that are added. -/
theorem addedSchema_zip {β : Type} (g : β → Attr) {D : Tr β} {d : Ds} (hi : Inv d) (hn : namesNew d.schema (D.map g) = true)
    (hd : Distinct Attr.name (D.map g)) : ∃ Z : Tr (Attr × β), addedSchema d (D.map g) = d.schema.append (Z.map Prod.fst) ∧ D = Z.map Prod.snd ∧
      (∀ x ∈ Z.flat, x.1 = { g x.2 with id := x.1.id }) ∧ (∀ i ∈ ids (Z.map Prod.fst), d.maxFieldId < i) ∧ (ids (Z.map Prod.fst)).Nodup := by
  unfold addedSchema
  rw [addFields_new (namesNew_iff.1 hn) (distinct_names hd)]
  unfold setFieldId
  rw [setIds_append hi.schema.nonneg]
  simp only
  rw [Tr.map_map]
  generalize hnext : max (maxId (ids (d.schema.append (D.map fun a => { g a with id := -1 })))) d.maxFieldId + 1 = next
  obtain ⟨Z, m, e, h1, h2, h3, h4, h5⟩ := setIds_zip (fun a => { g a with id := -1 }) (fun b => by simp) D next
  refine ⟨Z, by rw [e], h1, ?_, ?_, h5⟩
  · intro x hx
    have := h2 x hx
    rw [this]
  · intro i hi'
    have := (h4 i hi').1
    omega

theorem roots_shape {s t : Tr Attr} (hs : ShapeOk s) (ht : ShapeOk t) : ShapeOk (s.append t) := by
  induction s with
  | nil => exact ht
  | cons a k r _ ih => exact ⟨hs.1, hs.2.1, ih hs.2.2⟩

theorem shape_map {f : Attr → Attr} (hf : ∀ a, (f a).kind = a.kind) : ∀ {s : Tr Attr}, ShapeOk (s.map f) ↔ ShapeOk s
  | .nil => Iff.rfl
  | .cons a k r => by
    simp only [Tr.map, ShapeOk, hf, shape_map hf]
    constructor
    · rintro ⟨h1, h2⟩
      refine ⟨?_, h2⟩
      cases h : a.kind with
      | leaf n => simp only [h, Tr.map_eq_nil] at h1 ⊢; exact h1
      | struct => simp only [h, ne_eq, Tr.map_eq_nil] at h1 ⊢; exact h1
      | list =>
        simp only [h] at h1 ⊢
        obtain ⟨b, l, e⟩ := h1
        cases k with
        | nil => cases e
        | cons c kk rr =>
          simp only [Tr.map, Tr.cons.injEq, Tr.map_eq_nil] at e
          exact ⟨c, kk, by rw [e.2.2]⟩
    · rintro ⟨h1, h2⟩
      refine ⟨?_, h2⟩
      cases h : a.kind with
      | leaf n => simp only [h, Tr.map_eq_nil] at h1 ⊢; exact h1
      | struct => simp only [h, ne_eq, Tr.map_eq_nil] at h1 ⊢; exact h1
      | list =>
        simp only [h] at h1 ⊢
        obtain ⟨b, l, e⟩ := h1
        subst e
        exact ⟨f b, l.map f, rfl⟩

theorem zip_map {β : Type} {g : β → Attr} {h : Attr → Attr} {Z : Tr (Attr × β)} (hx : ∀ x ∈ Z.flat, h x.1 = h (g x.2)) :
    (Z.map Prod.fst).map h = ((Z.map Prod.snd).map g).map h := by
  rw [Tr.map_map, Tr.map_map, Tr.map_map]
  exact Tr.map_congr hx

/-- The shape and the names do not depend on the ids. -/
theorem zip_shape {β : Type} {g : β → Attr} {Z : Tr (Attr × β)} (hx : ∀ x ∈ Z.flat, x.1.name = (g x.2).name ∧ x.1.kind = (g x.2).kind) :
    (ShapeOk (Z.map Prod.fst) ↔ ShapeOk ((Z.map Prod.snd).map g)) ∧ (Distinct Attr.name (Z.map Prod.fst) ↔ Distinct Attr.name ((Z.map Prod.snd).map g)) := by
  have e := zip_map (h := fun a => (⟨a.name, 0, a.kind, true⟩ : Attr)) (g := g) (Z := Z) (fun x hm => by simp [hx x hm])
  constructor
  · rw [← shape_map (f := fun a => ⟨a.name, 0, a.kind, true⟩) (fun _ => rfl), e, shape_map (f := fun a => ⟨a.name, 0, a.kind, true⟩) (fun _ => rfl)]
  · have h : ∀ s : Tr Attr, Distinct Attr.name (s.map (fun a => (⟨a.name, 0, a.kind, true⟩ : Attr))) ↔ Distinct Attr.name s := fun s => distinct_map
    rw [← h, e, h]

theorem distinct_append {s t : Tr Attr} (hs : Distinct Attr.name s) (ht : Distinct Attr.name t) (h : ∀ x ∈ s.roots, ∀ y ∈ t.roots, y.1.name ≠ x.1.name) :
    Distinct Attr.name (s.append t) := by
  induction s with
  | nil => exact ht
  | cons a k r _ ih =>
    refine ⟨?_, hs.2.1, ih hs.2.2 (fun x hx => h x (by simp [Tr.roots, hx]))⟩
    intro u hu
    rw [Tr.roots_append, List.mem_append] at hu
    rcases hu with hu | hu
    · exact hs.1 u hu
    · exact h (a, k) (by simp [Tr.roots]) u hu

theorem schemaOk_append {s w : Tr Attr} (hs : SchemaOk s) (hn : (ids w).Nodup) (h0 : ∀ i ∈ ids w, 0 ≤ i) (hdis : ∀ i ∈ ids w, i ∉ ids s)
    (hd : Distinct Attr.name w) (hsh : ShapeOk w) (h : ∀ x ∈ s.roots, ∀ y ∈ w.roots, y.1.name ≠ x.1.name) : SchemaOk (s.append w) := by
  refine ⟨?_, ?_, distinct_append hs.distinct hd h, roots_shape hs.shape hsh⟩
  · rw [ids_append, List.nodup_append]
    exact ⟨hs.nodup, hn, fun i hi j hj e => hdis j hj (e ▸ hi)⟩
  · intro i hi
    rw [ids_append, List.mem_append] at hi
    rcases hi with hi | hi
    · exact hs.nonneg i hi
    · exact h0 i hi

theorem byName_append_new {s w : Tr Attr} (h : ∀ x ∈ s.roots, ∀ y ∈ w.roots, y.1.name ≠ x.1.name) {u : Attr × Tr Attr} (hu : u ∈ w.roots) :
    byName u.1.name (s.append w) = byName u.1.name w := by
  rw [byName_roots, byName_roots, Tr.roots_append, List.find?_append]
  have : s.roots.find? (fun t => t.1.name == u.1.name) = none := by
    rw [List.find?_eq_none]
    intro t ht
    simp only [beq_iff_eq]
    exact fun e => h t ht u hu e.symm
  rw [this]
  rfl

/-- `projectBySchema` finds the fields themselves. -/
theorem pbs_self {β : Type} (g : β → Attr) : ∀ {Z : Tr (Attr × β)} {T : Tr Attr}, (∀ x ∈ Z.flat, x.1.name = (g x.2).name ∧ x.1.kind = (g x.2).kind) →
    Distinct Attr.name (Z.map Prod.fst) → (∀ u ∈ (Z.map Prod.fst).roots, byName u.1.name T = some u) →
    projectBySchema T ((Z.map Prod.snd).map g) = some (Z.map Prod.fst)
  | .nil, _, _, _, _ => rfl
  | .cons x k r, T, hx, hd, h => by
    simp only [Tr.flat, List.mem_cons, List.mem_append] at hx
    have h0 := hx x (Or.inl rfl)
    have h1 := h (x.1, k.map Prod.fst) (by simp [Tr.map, Tr.roots])
    simp only at h1
    have hr := pbs_self g (Z := r) (T := T) (fun y hy => hx y (Or.inr (Or.inr hy))) hd.2.2 (fun u hu => h u (by simp [Tr.map, Tr.roots, hu]))
    have hk := pbs_self g (Z := k) (T := k.map Prod.fst) (fun y hy => hx y (Or.inr (Or.inl hy))) hd.2.1
      (fun u hu => byName_of_mem (distinct_names hd.2.1) hu)
    simp only [Tr.map, projectBySchema]
    rw [← h0.1, h1]
    simp only
    rw [if_pos h0.2, hr]
    have : (if (g x.2).kind = .struct ∨ (g x.2).kind = .list then projectBySchema (k.map Prod.fst) ((k.map Prod.snd).map g) else some (k.map Prod.fst)) =
        some (k.map Prod.fst) := by
      split
      · exact hk
      · rfl
    rw [this]

end Verif.Evolve
