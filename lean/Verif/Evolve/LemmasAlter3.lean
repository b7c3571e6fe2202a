import Verif.Evolve.LemmasAlter2
namespace Verif.Evolve

/-- What is known of the alterations once they are accepted. -/
structure Altered (d : Ds) (st : AltState) (F : Attr → Attr) : Prop where
  schema : st.schema = d.schema.map F
  ok : SchemaOk (d.schema.map F)
  sort : ∀ a ∈ d.schema.flat, SameSort a.kind (F a).kind
  keep : ∀ a ∈ d.schema.flat, a.nullable = true → (F a).nullable = true
  cast : ∀ a ∈ d.schema.flat, ((F a).id = a.id ∧ (F a).kind = a.kind) ∨
    ((∃ t0 t, a.kind = .leaf t0 ∧ (F a).kind = .leaf t) ∧ d.maxFieldId < (F a).id ∧ (a, Tr.nil) ∈ d.schema.roots ∧ ([a.name], a, F a) ∈ st.casts)
  casts : ∀ c ∈ st.casts, (c.2.1, Tr.nil) ∈ d.schema.roots ∧ c.1 = [c.2.1.name] ∧ c.2.2 = F c.2.1 ∧ d.maxFieldId < c.2.2.id

theorem distinct_iff {α : Type} {name : α → Nat} : ∀ {s : Tr α}, Distinct name s ↔ (s.roots.map (fun t => name t.1)).Nodup ∧ ∀ t ∈ s.roots, Distinct name t.2
  | .nil => by simp [Distinct, Tr.roots]
  | .cons a k r => by
    have ih := distinct_iff (name := name) (s := r)
    simp only [Distinct, Tr.roots, List.map_cons, List.nodup_cons, List.mem_cons, List.mem_map, not_exists, not_and]
    rw [ih]
    constructor
    · rintro ⟨h1, h2, h3, h4⟩
      refine ⟨⟨h1, h3⟩, ?_⟩
      rintro t (rfl | ht)
      · exact h2
      · exact h4 t ht
    · rintro ⟨⟨h1, h2⟩, h3⟩
      exact ⟨h1, h3 _ (Or.inl rfl), h2, fun t ht => h3 t (Or.inr ht)⟩

theorem inner_attr {F : Attr → Attr} {s : Tr Attr} (h : ∀ t ∈ (s.map (fun a => (F a).col [])).roots, Distinct Col.name t.2) :
    ∀ t ∈ (s.map F).roots, Distinct Attr.name t.2 := by
  intro t ht
  rw [Tr.roots_map] at ht
  obtain ⟨u, hu, rfl⟩ := List.mem_map.1 ht
  have := h ((F u.1).col [], u.2.map (fun a => (F a).col [])) (by rw [Tr.roots_map]; exact List.mem_map.2 ⟨u, hu, rfl⟩)
  simp only at this ⊢
  rw [distinct_map] at this ⊢
  exact this

theorem altered {cs : Casts} {d : Ds} {alts : List Alt} (hi : Inv d) (hfine : AlterFine cs d alts) {st : AltState} {F : Attr → Attr}
    (h : AltOk d.maxFieldId d.schema alts st F) (hv : validate st.schema = true) : Altered d st F := by
  have hM : ∀ a ∈ d.schema.flat, a.id ≤ d.maxFieldId := fun a ha => le_maxFieldId (List.mem_map_of_mem ha)
  have hnode : ∀ a ∈ d.schema.flat, ∃ q k, fieldAt q d.schema = some (a, k) ∧ NodeOk d.maxFieldId st (minePath alts q) q a (F a) := by
    intro a ha
    obtain ⟨q, k, hq⟩ := fieldAt_of_mem hi.schema.distinct ha
    exact ⟨q, k, hq, h.node q a k hq⟩
  have hdist : Distinct Attr.name (d.schema.map F) := by
    have h1 : specAlter cs alts [] (d.schema.map (fun a => a.col [])) = some (d.schema.map (fun a => (F a).col [])) := by
      apply specAlter_map (fun _ => rfl) hi.schema.distinct
      intro q a k hq
      exact node_spec (h.node q a k hq) (fun _ _ => rfl) (fun _ _ _ _ _ => rfl) (hM a (fieldAt_mem hq))
    have h2 := hfine.1 _ h1
    rw [h.schema] at hv
    unfold validate at hv
    rw [Bool.and_eq_true, Bool.and_eq_true] at hv
    exact distinct_iff.2 ⟨of_decide_eq_true hv.1.1, inner_attr h2⟩
  have hpath : ∀ q a k, fieldAt q d.schema = some (a, k) → q.length = 1 → (a, k) ∈ d.schema.roots ∧ q = [a.name] := by
    intro q a k hq hl
    match q, hl with
    | [x], _ =>
      have := byName_mem (show byName x d.schema = some (a, k) from hq)
      exact ⟨this.1, by rw [← this.2]⟩
  have hsort : ∀ a ∈ d.schema.flat, SameSort a.kind (F a).kind := by
    intro a ha
    obtain ⟨q, k, hq, hn⟩ := hnode a ha
    rcases hn.cast with ⟨_, _, h3⟩ | ⟨t0, t, _, h3, h4, _⟩
    · exact Or.inl h3
    · exact Or.inr ⟨t0, t, h3, h4⟩
  have hone : ∀ c ∈ st.casts, c.1.length = 1 := by
    intro c hc
    obtain ⟨_, _, _, al, h4, h5, h6⟩ := h.casts c hc
    rw [← h5]
    exact hfine.2.1 al h4 h6
  have hcast : ∀ a ∈ d.schema.flat, ((F a).id = a.id ∧ (F a).kind = a.kind) ∨
    ((∃ t0 t, a.kind = .leaf t0 ∧ (F a).kind = .leaf t) ∧ d.maxFieldId < (F a).id ∧ (a, Tr.nil) ∈ d.schema.roots ∧ ([a.name], a, F a) ∈ st.casts) := by
    intro a ha
    obtain ⟨q, k, hq, hn⟩ := hnode a ha
    rcases hn.cast with ⟨_, h2, h3⟩ | ⟨t0, t, _, h3, h4, h5, _, h6⟩
    · exact Or.inl ⟨h2, h3⟩
    · right
      obtain ⟨g1, g2⟩ := hpath q a k hq (hone _ h6)
      have hk := shape_leaf hi.schema.shape g1 h3
      simp only at hk
      subst hk
      subst g2
      exact ⟨⟨t0, t, h3, h4⟩, h5, g1, h6⟩
  refine ⟨h.schema, ⟨h.nodup, ?_, hdist, shape_map_on hsort hi.schema.shape⟩, hsort, ?_, hcast, ?_⟩
  · intro i hii
    unfold validate at hv
    simp only [Bool.and_eq_true, List.all_eq_true, decide_eq_true_eq] at hv
    exact hv.1.2 i (by rw [h.schema]; exact hii)
  · intro a ha
    obtain ⟨q, k, hq, hn⟩ := hnode a ha
    exact hn.keep
  · intro c hc
    obtain ⟨⟨k, h1⟩, h2, h3, _⟩ := h.casts c hc
    obtain ⟨g1, g2⟩ := hpath _ _ _ h1 (hone c hc)
    have hfl : c.2.1 ∈ d.schema.flat := fieldAt_mem h1
    have hF := hcast c.2.1 hfl
    rcases hF with ⟨e, _⟩ | ⟨⟨t0, _, e, _⟩, _⟩
    · rw [h2, e] at h3
      have := hM _ hfl
      omega
    · have hk := shape_leaf hi.schema.shape g1 e
      simp only at hk
      subst hk
      exact ⟨g1, g2, h2, h3⟩

/-- The top level fields that are cast. -/
def castW (F : Attr → Attr) (s : Tr Attr) : Tr (Attr × Attr) := (s.filterTop (fun a _ => decide ((F a).id ≠ a.id))).map (fun a => (F a, a))

theorem castW_flat {d : Ds} {st : AltState} {F : Attr → Attr} (hs : SchemaOk d.schema) (h : Altered d st F) {x : Attr × Attr} :
    x ∈ (castW F d.schema).flat ↔ ∃ a, (a, Tr.nil) ∈ d.schema.roots ∧ (F a).id ≠ a.id ∧ x = (F a, a) := by
  have hroot : ∀ t ∈ (d.schema.filterTop (fun a _ => decide ((F a).id ≠ a.id))).roots, t ∈ d.schema.roots ∧ (F t.1).id ≠ t.1.id ∧ t.2 = .nil := by
    intro t ht
    rw [Tr.roots_filterTop, List.mem_filter] at ht
    have h2 := of_decide_eq_true ht.2
    refine ⟨ht.1, h2, ?_⟩
    have hfl := Tr.root_mem_flat ht.1
    rcases h.cast t.1 hfl with ⟨e, _⟩ | ⟨⟨t0, t1, e, _⟩, _⟩
    · exact absurd e h2
    · exact shape_leaf hs.shape ht.1 e
  unfold castW
  rw [Tr.flat_map, List.mem_map]
  constructor
  · rintro ⟨a, ha, rfl⟩
    obtain ⟨t, ht, h1⟩ := Tr.mem_flat.1 ha
    obtain ⟨g1, g2, g3⟩ := hroot t ht
    rw [g3] at h1
    rcases h1 with rfl | h1
    · refine ⟨t.1, ?_, g2, rfl⟩
      rw [← g3]
      exact g1
    · cases h1
  · rintro ⟨a, ha, hne, rfl⟩
    refine ⟨a, ?_, rfl⟩
    refine Tr.root_mem_flat (x := (a, .nil)) ?_
    rw [Tr.roots_filterTop, List.mem_filter]
    exact ⟨ha, decide_eq_true hne⟩

theorem castW_strict {d : Ds} {st : AltState} {F : Attr → Attr} (hs : SchemaOk d.schema) (h : Altered d st F) {x : Attr × Attr} (hx : x ∈ (castW F d.schema).flat) :
    x ∈ strictZ (castW F d.schema) := by
  obtain ⟨a, h1, h2, rfl⟩ := (castW_flat hs h).1 hx
  have hroots : ∀ {Z : Tr (Attr × Attr)} {z}, z ∈ Z.roots → z.1 ∈ strictZ Z := by
    intro Z
    induction Z with
    | nil => intro z hz; cases hz
    | cons y k r _ ih =>
      intro z hz
      simp only [Tr.roots, List.mem_cons] at hz
      simp only [strictZ, List.mem_cons, List.mem_append]
      rcases hz with rfl | hz
      · exact Or.inl rfl
      · exact Or.inr (Or.inr (ih hz))
  refine hroots (z := ((F a, a), .nil)) ?_
  unfold castW
  rw [Tr.roots_map, List.mem_map]
  refine ⟨(a, .nil), ?_, rfl⟩
  rw [Tr.roots_filterTop, List.mem_filter]
  exact ⟨h1, decide_eq_true h2⟩

theorem kid_same {d : Ds} {st : AltState} {F : Attr → Attr} (hs : SchemaOk d.schema) (h : Altered d st F) :
    ∀ t ∈ d.schema.roots, ∀ a ∈ t.2.flat, (F a).id = a.id ∧ (F a).kind = a.kind := by
  intro t ht a ha
  rcases h.cast a (Tr.kid_mem_flat ht ha) with e | ⟨_, _, g, _⟩
  · exact e
  · exfalso
    have := root_of_id hs.nodup ht g (i := a.id) (by simp only [rootIds, List.mem_cons]; exact Or.inr (List.mem_map_of_mem ha)) (by simp [rootIds])
    rw [this] at ha
    cases ha

theorem castW_fst {d : Ds} {st : AltState} {F : Attr → Attr} (hs : SchemaOk d.schema) (h : Altered d st F) :
    projectByIds (st.casts.map (fun c => c.2.2.id)) true st.schema = (castW F d.schema).map Prod.fst := by
  have hnew : ∀ i ∈ st.casts.map (fun c => c.2.2.id), d.maxFieldId < i := by
    intro i hi
    obtain ⟨c, hc, rfl⟩ := List.mem_map.1 hi
    exact (h.casts c hc).2.2.2
  have hkid : ∀ t ∈ d.schema.roots, ∀ a ∈ t.2.flat, (F a).id = a.id := fun t ht a ha => (kid_same hs h t ht a ha).1
  have hdec : ∀ t ∈ d.schema.roots, ((F t.1).id ∈ st.casts.map (fun c => c.2.2.id) ↔ (F t.1).id ≠ t.1.id) := by
    intro t ht
    have hfl := Tr.root_mem_flat ht
    constructor
    · intro hm e
      have h1 := hnew _ hm
      rw [e] at h1
      have := le_maxFieldId (d := d) (List.mem_map_of_mem (f := Attr.id) hfl)
      omega
    · intro hne
      rcases h.cast t.1 hfl with ⟨e, _⟩ | ⟨_, _, _, g⟩
      · exact absurd e hne
      · exact List.mem_map.2 ⟨_, g, rfl⟩
  apply Tr.roots_inj
  rw [h.schema, projectByIds_roots]
  · unfold castW
    rw [Tr.map_map, Tr.roots_map, Tr.roots_map, Tr.roots_filterTop, List.filter_map]
    congr 1
    apply List.filter_congr
    intro t ht
    simp only [Function.comp]
    rw [Bool.eq_iff_iff, List.contains_iff_mem, decide_eq_true_eq]
    exact hdec t ht
  · intro t ht
    rw [Tr.roots_map] at ht
    obtain ⟨u, hu, rfl⟩ := List.mem_map.1 ht
    have hids : rootIds (F u.1, u.2.map F) = (F u.1).id :: ids u.2 := by
      simp only [rootIds]
      rw [map_ids (hkid u hu)]
    rw [hids]
    by_cases e : (F u.1).id = u.1.id
    · right
      intro i hii c
      have h1 := hnew i c
      have h2 : i ∈ ids d.schema := by
        refine mem_ids_root.2 ⟨u, hu, ?_⟩
        rw [e] at hii
        exact hii
      have := le_maxFieldId h2
      omega
    · left
      intro i hii
      have hk : u.2 = .nil := by
        rcases h.cast u.1 (Tr.root_mem_flat hu) with ⟨e', _⟩ | ⟨⟨t0, t1, e', _⟩, _⟩
        · exact absurd e' e
        · exact shape_leaf hs.shape hu e'
      rw [hk] at hii
      simp only [ids, Tr.flat, List.map_nil, List.mem_singleton] at hii
      rw [hii]
      exact (hdec u hu).2 e

/-- The columns that a cast writes. -/
def castC (cs : Casts) (F : Attr → Attr) (fr : Frag) (a : Attr) : Col := (F a).col (castV cs F a (L fr a).vals)

theorem blanks_nil (n : Nat) : blanks n [] = List.range n := by
  unfold blanks
  have : (fun i => if ([] : List Nat).contains i = true then 0 else i - (([] : List Nat).filter (fun j => decide (j < i))).length) = fun i => i := by
    funext i
    simp
  rw [this]
  simp

theorem castFrag_ok {cs : Casts} (hcs : cs.strict) {d : Ds} (hi : Inv d) {st : AltState} {F : Attr → Attr} (h : Altered d st F) {fr : Frag} (hfr : fr ∈ d.frags)
    (hne : fr.del = [] ∨ 0 < (alive fr.phys fr.del).length)
    (hsucc : ∀ a ∈ d.schema.flat, (F a).id ≠ a.id → ∀ c ∈ (L fr a).vals, (cs.cast a.kind.ty (F a).kind.ty c).isSome) :
    let fr' := fr.addFile (fileOf d.legacy fr.phys (pickZ (blanks fr.phys fr.del) ((castW F d.schema).map (fun x => (x.1, castC cs F fr x.2)))))
    FragOk d.legacy (d.schema.map F) fr' ∧ (∀ a ∈ d.schema.flat, (F a).id = a.id → fr'.colVals (F a).id = fr.colVals a.id) ∧
      ∀ a ∈ d.schema.flat, (F a).id ≠ a.id → pickVals (alive fr.phys fr.del) (fr'.colVals (F a).id) = castV cs F a (pickVals (alive fr.phys fr.del) (fr.colVals a.id)) := by
  have hs := hi.schema
  have hf := hi.frags fr hfr
  have hfst : (pickZ (blanks fr.phys fr.del) ((castW F d.schema).map (fun x => (x.1, castC cs F fr x.2)))).map Prod.fst = (castW F d.schema).map Prod.fst := by
    rw [pickZ_fst, Tr.map_map]
  have hidsW : ∀ i, i ∈ ids ((castW F d.schema).map Prod.fst) ↔ ∃ a, (a, Tr.nil) ∈ d.schema.roots ∧ (F a).id ≠ a.id ∧ i = (F a).id := by
    intro i
    constructor
    · intro hm
      obtain ⟨x, hx, rfl⟩ := mem_fst hm
      obtain ⟨a, h1, h2, rfl⟩ := (castW_flat hs h).1 hx
      exact ⟨a, h1, h2, rfl⟩
    · rintro ⟨a, h1, h2, rfl⟩
      exact List.mem_map_of_mem (mem_fst' ((castW_flat hs h).2 ⟨a, h1, h2, rfl⟩))
  have hMF : ∀ a ∈ d.schema.flat, (F a).id ≠ a.id → d.maxFieldId < (F a).id := by
    intro a ha hn
    rcases h.cast a ha with ⟨e, _⟩ | ⟨_, g, _⟩
    · exact absurd e hn
    · exact g
  have hMa : ∀ a ∈ d.schema.flat, a.id ≤ d.maxFieldId := fun a ha => le_maxFieldId (List.mem_map_of_mem ha)
  have hgt : ∀ i ∈ ids ((castW F d.schema).map Prod.fst), d.maxFieldId < i := by
    intro i hm
    obtain ⟨a, h1, h2, rfl⟩ := (hidsW i).1 hm
    exact hMF a (Tr.root_mem_flat h1) h2
  have hdis : ∀ i ∈ ids ((castW F d.schema).map Prod.fst), i ∉ fr.files.flatMap File.ids := by
    intro i hm c
    have h1 := hgt i hm
    have h2 := le_maxFieldId_frag hfr c
    omega
  have hold : ∀ a ∈ d.schema.flat, (F a).id = a.id → (F a).id ∉ ids ((castW F d.schema).map Prod.fst) := by
    intro a ha e c
    have h1 := hgt _ c
    have h2 := hMa a ha
    omega
  have hnodup : (ids ((castW F d.schema).map Prod.fst)).Nodup := by
    rw [← castW_fst hs h, h.schema]
    have h1 := h.ok.nodup
    have hsub : ∀ (l : List Int) (s : Tr Attr), List.Sublist (ids (projectByIds l true s)) (ids s) := by
      intro l s
      induction s with
      | nil => exact List.Sublist.refl _
      | cons a k r ihk ihr =>
        unfold projectByIds
        simp only
        split
        · rw [ids_cons, ids_cons]
          exact (List.Sublist.append (List.Sublist.refl _) ihr).cons_cons _
        · split
          · rw [ids_cons]
            exact (ihr.trans (List.sublist_append_right _ _)).cons _
          · rw [ids_cons, ids_cons]
            exact (ihk.append ihr).cons_cons _
    exact h1.sublist (hsub _ _)
  -- the cast cells
  have hC : ∀ a ∈ d.schema.flat, (F a).id ≠ a.id → ∃ t0 t, a.kind = .leaf t0 ∧ (F a).kind = .leaf t ∧ a ∈ strict d.schema ∧
      (castC cs F fr a).vals = castV cs F a (pickVals (alive fr.phys fr.del) (fr.colVals a.id)) ∧ (castC cs F fr a).kind = (F a).kind := by
    intro a ha hn
    rcases h.cast a ha with ⟨e, _⟩ | ⟨⟨t0, t, e1, e2⟩, _, g, _⟩
    · exact absurd e hn
    · refine ⟨t0, t, e1, e2, mem_strict_root.2 ⟨_, g, Or.inl rfl⟩, ?_, rfl⟩
      simp [castC, L, Attr.col, e1, e2]
  have hlt : ∀ i ∈ blanks fr.phys fr.del, i < (alive fr.phys fr.del).length := by
    rcases hne with e | e
    · rw [e, blanks_nil, alive_nil]
      intro i hi'
      simpa using hi'
    · exact blanks_lt hf.del.1 rfl e
  have hZ : ∀ x ∈ (pickZ (blanks fr.phys fr.del) ((castW F d.schema).map (fun x => (x.1, castC cs F fr x.2)))).flat,
      ∃ a, (a, Tr.nil) ∈ d.schema.roots ∧ (F a).id ≠ a.id ∧ x = (F a, pickC (blanks fr.phys fr.del) (castC cs F fr a)) := by
    intro x hx
    rw [pickZ, Tr.map_map, Tr.flat_map] at hx
    obtain ⟨y, hy, rfl⟩ := List.mem_map.1 hx
    obtain ⟨a, h1, h2, rfl⟩ := (castW_flat hs h).1 hy
    exact ⟨a, h1, h2, rfl⟩
  have hZ' : ∀ a, (a, Tr.nil) ∈ d.schema.roots → (F a).id ≠ a.id →
      (F a, pickC (blanks fr.phys fr.del) (castC cs F fr a)) ∈ (pickZ (blanks fr.phys fr.del) ((castW F d.schema).map (fun x => (x.1, castC cs F fr x.2)))).flat := by
    intro a h1 h2
    rw [pickZ, Tr.map_map, Tr.flat_map]
    exact List.mem_map.2 ⟨(F a, a), (castW_flat hs h).2 ⟨a, h1, h2, rfl⟩, rfl⟩
  have hvals : ∀ a ∈ d.schema.flat, (F a).id ≠ a.id → (pickC (blanks fr.phys fr.del) (castC cs F fr a)).vals =
      pickVals (blanks fr.phys fr.del) (castV cs F a (pickVals (alive fr.phys fr.del) (fr.colVals a.id))) := by
    intro a ha hn
    obtain ⟨t0, t, e1, e2, _, e3, e4⟩ := hC a ha hn
    simp only [pickC]
    rw [e4, e2, e3]
    simp
  have hback : ∀ a ∈ (d.schema.map F).flat, a.id ∈ ids ((castW F d.schema).map Prod.fst) →
      ∃ b, (b, Tr.nil) ∈ d.schema.roots ∧ (F b).id ≠ b.id ∧ a = F b := by
    intro a ha hm
    obtain ⟨b, h1, h2, h3⟩ := (hidsW _).1 hm
    refine ⟨b, h1, h2, ?_⟩
    refine same_attr h.ok.nodup ha ?_ h3
    rw [Tr.flat_map]
    exact List.mem_map_of_mem (Tr.root_mem_flat h1)
  refine ⟨?_, ?_, ?_⟩
  · refine fragOk_addFile hf.nodup hf.rows hf.format hf.del (by rw [hfst]; exact hnodup) (by rw [hfst]; exact hdis) ?_ ?_ ?_ ?_ ?_ ?_ ?_
    · intro x hx _
      obtain ⟨a, h1, h2, rfl⟩ := hZ x hx
      rw [hvals a (Tr.root_mem_flat h1) h2]
      simp [pickVals, blanks]
    · intro x hx
      obtain ⟨a, h1, h2, rfl⟩ := hZ x (strictZ_flat hx)
      have hfl := Tr.root_mem_flat h1
      simp only
      rw [hvals a hfl h2]
      obtain ⟨t0, t, e1, e2, e3, _, _⟩ := hC a hfl h2
      have hn := L_nullOk hf e3 hfl
      have hL : (L fr a).vals = pickVals (alive fr.phys fr.del) (fr.colVals a.id) := by simp [L, Attr.col, e1]
      rw [hL] at hn
      refine pick_nullOk (nullOk_mono (h.keep a hfl) ?_) (n := (alive fr.phys fr.del).length) (by simp [castV, pickVals]) hlt
      unfold nullOk at hn ⊢
      rw [Bool.or_eq_true, List.all_eq_true] at hn ⊢
      rcases hn with hn | hn
      · exact Or.inl hn
      · right
        intro c hc
        unfold castV at hc
        obtain ⟨c0, hc0, rfl⟩ := List.mem_map.1 hc
        have := hn c0 hc0
        cases c0 with
        | none => cases this
        | some v =>
          have h1 := hsucc a hfl h2 (some v) (by rw [hL]; exact hc0)
          cases e : cs.cast a.kind.ty (F a).kind.ty (some v) with
          | none => rw [e] at h1; cases h1
          | some w =>
            cases w with
            | none => exact absurd e (hcs _ _ _)
            | some w => rfl
    · intro t ht
      rw [hfst]
      rw [Tr.roots_map] at ht
      obtain ⟨u, hu, rfl⟩ := List.mem_map.1 ht
      have hufl := Tr.root_mem_flat hu
      by_cases e : (F u.1).id = u.1.id
      · right
        have hk : (F u.1).kind = u.1.kind := by
          rcases h.cast u.1 hufl with ⟨_, e'⟩ | ⟨_, e', _⟩
          · exact e'
          · have := hMa u.1 hufl
            omega
        obtain ⟨g1, g2⟩ := whole_map hf hu (F := F) (by
          rintro a (rfl | ha)
          · exact ⟨e, hk, h.keep _ hufl⟩
          · obtain ⟨k1, k2⟩ := kid_same hs h u hu a ha
            exact ⟨k1, k2, h.keep a (Tr.kid_mem_flat hu ha)⟩)
        rcases g2 with g2 | ⟨g2, g3, g4⟩
        · exact Or.inl g2
        · refine Or.inr ⟨g2, ?_, g3, g4⟩
          intro i hii c
          rw [g1] at hii
          have h1 := hgt i c
          have h2 := le_maxFieldId (d := d) (mem_ids_root.2 ⟨u, hu, hii⟩)
          omega
      · left
        have hk : u.2 = .nil := by
          rcases h.cast u.1 hufl with ⟨e', _⟩ | ⟨⟨t0, t1, e', _⟩, _⟩
          · exact absurd e' e
          · exact shape_leaf hs.shape hu e'
        obtain ⟨b, k⟩ := u
        simp only at hk
        subst hk
        intro i hii
        simp only [rootIds, Tr.map, ids, Tr.flat, List.map_nil, List.mem_singleton] at hii
        exact (hidsW i).2 ⟨b, hu, e, hii⟩
    · intro a ha hk v hv
      rw [Tr.flat_map] at ha
      obtain ⟨b, hb, rfl⟩ := List.mem_map.1 ha
      rcases h.cast b hb with ⟨e1, e2⟩ | ⟨_, e, _⟩
      · rw [e1] at hv
        rw [e2] at hk
        exact hf.len b hb hk v hv
      · rw [lookup_none (fun c => by have := le_maxFieldId_frag hfr c; omega)] at hv
        cases hv
    · intro a ha hk v hv
      rw [strict_map (fun b hb => by
        rcases h.sort b hb with e | ⟨t0, t, e1, e2⟩
        · rw [e]
        · rw [e1, e2]; simp)] at ha
      obtain ⟨b, hb, rfl⟩ := List.mem_map.1 ha
      rcases h.cast b (strict_flat hb) with ⟨e1, e2⟩ | ⟨_, e, _⟩
      · rw [e1] at hv
        rw [e2] at hk
        exact nullOk_mono (h.keep b (strict_flat hb)) (hf.nonnull b hb hk v hv)
      · rw [lookup_none (fun c => by have := le_maxFieldId_frag hfr c; omega)] at hv
        cases hv
    · intro a ha hm
      rw [hfst] at hm
      obtain ⟨b, h1, h2, rfl⟩ := hback a ha hm
      exact ⟨_, hZ' b h1 h2, rfl⟩
    · intro a ha hm
      rw [hfst] at hm
      obtain ⟨b, h1, h2, rfl⟩ := hback a (strict_flat ha) hm
      refine ⟨(F b, pickC (blanks fr.phys fr.del) (castC cs F fr b)), ?_, rfl⟩
      have h3 := castW_strict hs h ((castW_flat hs h).2 ⟨b, h1, h2, rfl⟩)
      rw [pickZ, Tr.map_map]
      rw [strictZ_map (fun a => pickC (blanks fr.phys fr.del) (castC cs F fr a))]
      exact List.mem_map.2 ⟨_, h3, rfl⟩
  · intro a ha e
    rw [addFile_colVals_old (by rw [fileOf_ids, hfst]; exact hold a ha e), e]
  · intro a ha hn
    rcases h.cast a ha with ⟨e, _⟩ | ⟨_, _, g, _⟩
    · exact absurd e hn
    · have := addFile_colVals_new (lg := d.legacy) (fr := fr) (by rw [hfst]; exact hnodup) (by rw [hfst]; exact hdis) (hZ' a g hn)
      simp only at this
      rw [this, hvals a ha hn]
      exact pick_blanks hf.del.1 (by simp [castV, pickVals])

theorem spec_altered {cs : Casts} {d : Ds} {alts : List Alt} (hi : Inv d) {st : AltState} {F : Attr → Attr} (h : AltOk d.maxFieldId d.schema alts st F)
    {v w : Attr → List Cell} (hno : ∀ a ∈ d.schema.flat, (F a).id = a.id → v a = w a)
    (hc : ∀ a ∈ d.schema.flat, (F a).id ≠ a.id → (v a).mapM (cs.cast a.kind.ty (F a).kind.ty) = some (w a)) :
    specAlter cs alts [] (d.schema.map (fun a => a.col (v a))) = some (d.schema.map (fun a => (F a).col (w a))) := by
  apply specAlter_map (fun _ => rfl) hi.schema.distinct
  intro q a k hq
  have ha : a ∈ d.schema.flat := fieldAt_mem hq
  refine node_spec (h.node q a k hq) (fun e _ => hno a ha e) ?_ (le_maxFieldId (List.mem_map_of_mem ha))
  intro t0 t hn e1 e2
  have := hc a ha hn
  rw [e1, e2] at this
  exact this

theorem alter_ok {cs : Casts} (hcs : cs.strict) {d d' : Ds} {alts : List Alt} (hi : Inv d) (hfine : AlterFine cs d alts) (h : alter cs d alts = some d') :
    Inv d' ∧ d'.table.n = d.table.n ∧ specAlter cs alts [] d.table.cols = some d'.table.cols := by
  unfold alter at h
  cases e : alterAll cs d.schema ⟨d.schema, [], d.maxFieldId + 1⟩ alts with
  | none => rw [e] at h; cases h
  | some st =>
  rw [e] at h
  simp only at h
  split at h
  case isFalse => cases h
  rename_i hv
  obtain ⟨F, hF⟩ := alterAll_start hi.schema e
  have ha := altered hi hfine hF hv
  have hs := hi.schema
  have hempty : d.schema.map F = .nil → d.frags = [] := fun c => hi.empty (Tr.map_eq_nil.1 c)
  cases ec : st.casts with
  | nil =>
    rw [ec] at h
    simp only [Option.some.injEq] at h
    have hsame : ∀ a ∈ d.schema.flat, (F a).id = a.id ∧ (F a).kind = a.kind := by
      intro a hm
      rcases ha.cast a hm with e | ⟨_, _, _, g⟩
      · exact e
      · rw [ec] at g; cases g
    rw [ha.schema] at h
    subst h
    refine ⟨⟨ha.ok, ?_, ?_⟩, dropFiles_n _ _, ?_⟩
    · intro fr hfr
      obtain ⟨fr0, h0, rfl⟩ := List.mem_map.1 hfr
      exact fragOk_dropFiles (fragOk_rename (hi.frags fr0 h0) (fun a hm => ⟨(hsame a hm).1, (hsame a hm).2, ha.keep a hm⟩))
    · intro c
      simp only
      rw [hempty c]
      rfl
    · unfold Ds.table absCol
      simp only
      rw [spec_altered hi hF (v := fun a => absVals d.frags a.id) (w := fun a => absVals (d.frags.map (dropFiles (d.schema.map F))) (F a).id)]
      · rw [Tr.map_map]
      · intro a hm _
        rw [dropFiles_vals (by simp only [ids, Tr.flat_map, List.map_map]; exact List.mem_map.2 ⟨a, hm, rfl⟩), (hsame a hm).1]
      · intro a hm hn
        exact absurd (hsame a hm).1 hn
  | cons c0 cs0 =>
    rw [ec] at h
    simp only at h
    rw [← ec] at h
    have hpaths : ∀ q ∈ st.casts.map Prod.fst, ∃ a, q = [a.name] ∧ (a, Tr.nil) ∈ d.schema.roots := by
      intro q hq
      obtain ⟨c, hc, rfl⟩ := List.mem_map.1 hq
      obtain ⟨h1, h2, _⟩ := ha.casts c hc
      exact ⟨c.2.1, h2, h1⟩
    have hr : ReadFine d.schema (st.casts.map Prod.fst) := by
      intro q hq
      obtain ⟨a, rfl, h1⟩ := hpaths q hq
      refine ⟨?_, trivial⟩
      show (byName a.name d.schema).isSome
      rw [byName_of_mem (distinct_names hs.distinct) h1]
      rfl
    have hst : StoredFine d (st.casts.map Prod.fst) := by
      intro fr hfr
      rcases hfine.2.2 fr hfr with h1 | h1
      · exact Or.inl h1
      · right
        intro q hq
        obtain ⟨c, hc, rfl⟩ := List.mem_map.1 hq
        obtain ⟨_, _, _, al, h4, h5, h6⟩ := hF.casts c hc
        exact h1 c.1 (List.mem_map.2 ⟨al, List.mem_filter.2 ⟨h4, h6⟩, h5⟩)
    cases ep : project d.schema (st.casts.map Prod.fst) .nil with
    | none => rw [ep] at h; cases h
    | some p =>
    rw [ep] at h
    simp only at h
    rw [castW_fst hs ha] at h
    cases em : d.frags.mapM (updateFrag d.legacy d.schema p ((castW F d.schema).map Prod.fst) (fun b => (castCols cs st.casts b.cols).map (fun c => ⟨b.n, c⟩))) with
    | none => rw [em] at h; cases h
    | some frags =>
    rw [em] at h
    simp only [Option.map_some, Option.some.injEq] at h
    obtain ⟨f1, f2⟩ := mapM_inv
      (g := fun fr => fr.addFile (fileOf d.legacy fr.phys (pickZ (blanks fr.phys fr.del) ((castW F d.schema).map (fun x => (x.1, castC cs F fr x.2))))))
      (Q := fun fr => (fr.del = [] ∨ 0 < (alive fr.phys fr.del).length) ∧
        ∀ a ∈ d.schema.flat, (F a).id ≠ a.id → ∀ c ∈ (L fr a).vals, (cs.cast a.kind.ty (F a).kind.ty c).isSome) (by
        intro fr hfr fr' hu
        have hread := read_asked hi hr hst ep hfr
        cases enb : castCols cs st.casts (p.map (L fr)) with
        | none =>
          unfold updateFrag at hu
          rw [hread] at hu
          simp only [enb, Option.map_none] at hu
          cases hu
        | some nb =>
        have hfst : ((castW F d.schema).map (fun x => (x.1, castC cs F fr x.2))).map Prod.fst = (castW F d.schema).map Prod.fst := by rw [Tr.map_map]
        rw [← hfst] at hu
        -- each cast column is found
        have hfind : ∀ a, (a, Tr.nil) ∈ d.schema.roots → (F a).id ≠ a.id → ∃ t0 t v, a.kind = .leaf t0 ∧ (F a).kind = .leaf t ∧
            (L fr a).vals.mapM (cs.cast t0 t) = some v ∧ colByName (F a).name nb = some ((F a).col v, .nil) := by
          intro a hra hn
          have hfl := Tr.root_mem_flat hra
          rcases ha.cast a hfl with ⟨e', _⟩ | ⟨_, _, _, g⟩
          · exact absurd e' hn
          · obtain ⟨c, hc, hx, col, kids, t0, t, v, g1, g2, g3, g4, g5⟩ := castCols_find enb ⟨_, g, rfl⟩
            obtain ⟨k1, k2, k3, _⟩ := ha.casts c hc
            have hca : c.2.1 = a := by
              have hd := distinct_names ha.ok.distinct
              have m1 : (F c.2.1, Tr.nil) ∈ (d.schema.map F).roots := by
                rw [Tr.roots_map]
                exact List.mem_map.2 ⟨_, k1, rfl⟩
              have m2 : (F a, Tr.nil) ∈ (d.schema.map F).roots := by
                rw [Tr.roots_map]
                exact List.mem_map.2 ⟨_, hra, rfl⟩
              have b1 := byName_of_mem hd m1
              have b2 := byName_of_mem hd m2
              simp only at b1 b2 hx
              rw [← k3, hx, b2] at b1
              simp only [Option.some.injEq, Prod.mk.injEq, and_true] at b1
              have b3 : (F c.2.1).id = (F a).id := by rw [← k3, ← b1]
              have hnd := ha.ok.nodup
              simp only [ids, Tr.flat_map, List.map_map] at hnd
              have q1 := find_key (fun a => (F a).id) hnd (Tr.root_mem_flat k1)
              have q2 := find_key (fun a => (F a).id) hnd hfl
              simp only at q1 q2
              rw [b3, q2] at q1
              simp only [Option.some.injEq] at q1
              exact q1.symm
            rw [hca] at g1 g2
            rw [k3, hca] at g3 g5
            have hcol : col = L fr a := by
              have hp := project_cols hs.distinct hs.shape (readFine_has hr) ep (f := L fr) (fun _ => rfl) [a.name]
              rw [if_pos ⟨[a.name], List.mem_map.2 ⟨_, g, rfl⟩, Or.inl (List.prefix_refl _)⟩] at hp
              simp only [colAt] at hp
              rw [g1, colByName_map (fun _ => rfl), byName_of_mem (distinct_names hs.distinct) hra] at hp
              simpa using hp
            rw [hcol] at g4
            exact ⟨t0, t, v, g2, g3, g4, g5⟩
        obtain ⟨_, z2, z3, _⟩ := updateFrag_zip (hi.frags fr hfr) hread rfl (nb := ⟨(alive fr.phys fr.del).length, nb⟩)
          (by simp only [enb, Option.map_some]) (by
            intro z hz
            rw [Tr.roots_map] at hz
            obtain ⟨y, hy, rfl⟩ := List.mem_map.1 hz
            obtain ⟨a, h1, h2, h3⟩ := (castW_flat hs ha).1 (Tr.root_mem_flat hy)
            obtain ⟨t0, t, v, g1, g2, g3, g4⟩ := hfind a h1 h2
            have hyk : y.2 = .nil := by
              unfold castW at hy
              rw [Tr.roots_map] at hy
              obtain ⟨u, hu', rfl⟩ := List.mem_map.1 hy
              rw [Tr.roots_filterTop, List.mem_filter] at hu'
              simp only [Prod.mk.injEq] at h3
              have hk1 : u.1.kind = .leaf t0 := by rw [h3.2]; exact g1
              have := shape_leaf hs.shape hu'.1 hk1
              simp only [this]
              rfl
            simp only
            rw [h3, hyk, g4]
            simp only [Tr.map, castC]
            rw [(mapM_total (dflt := none) g3).1]
            simp [castV, g1, g2, Kind.ty]) hu
        refine ⟨z3, z2, ?_⟩
        intro a hm hn c hc
        rcases ha.cast a hm with ⟨e', _⟩ | ⟨_, _, g, _⟩
        · exact absurd e' hn
        · obtain ⟨t0, t, v, g1, g2, g3, g4⟩ := hfind a g hn
          rw [g1, g2]
          exact (mapM_total (dflt := none) g3).2 c hc) em
    have hall : ∀ fr ∈ d.frags, _ := fun fr hfr => castFrag_ok hcs hi ha hfr (f2 fr hfr).1 (f2 fr hfr).2
    rw [ha.schema] at h
    subst h
    have hvals : ∀ a ∈ d.schema.flat, absVals frags (F a).id = if (F a).id = a.id then absVals d.frags a.id else castV cs F a (absVals d.frags a.id) := by
      intro a hm
      rw [f1]
      unfold absVals
      rw [List.flatMap_map]
      split
      · rename_i e'
        have : ∀ l : List Frag, (∀ fr ∈ l, fr ∈ d.frags) → l.flatMap (fun fr => pickVals (alive fr.phys fr.del)
            ((fr.addFile (fileOf d.legacy fr.phys (pickZ (blanks fr.phys fr.del) ((castW F d.schema).map (fun x => (x.1, castC cs F fr x.2)))))).colVals (F a).id)) =
            l.flatMap (fun fr => pickVals (alive fr.phys fr.del) (fr.colVals a.id)) := by
          intro l hl
          induction l with
          | nil => rfl
          | cons fr l ih =>
            rw [List.flatMap_cons, List.flatMap_cons, ih (fun x hx => hl x (by simp [hx])), (hall fr (hl fr (by simp))).2.1 a hm e']
        exact this _ (fun _ h => h)
      · rename_i e'
        have : ∀ l : List Frag, (∀ fr ∈ l, fr ∈ d.frags) → l.flatMap (fun fr => pickVals (alive fr.phys fr.del)
            ((fr.addFile (fileOf d.legacy fr.phys (pickZ (blanks fr.phys fr.del) ((castW F d.schema).map (fun x => (x.1, castC cs F fr x.2)))))).colVals (F a).id)) =
            castV cs F a (l.flatMap (fun fr => pickVals (alive fr.phys fr.del) (fr.colVals a.id))) := by
          intro l hl
          induction l with
          | nil => rfl
          | cons fr l ih =>
            rw [List.flatMap_cons, List.flatMap_cons, ih (fun x hx => hl x (by simp [hx])), (hall fr (hl fr (by simp))).2.2 a hm e']
            simp [castV]
        exact this _ (fun _ h => h)
    have hnew : ∀ a ∈ d.schema.flat, absVals (frags.map (dropFiles (d.schema.map F))) (F a).id = absVals frags (F a).id := by
      intro a hm
      exact dropFiles_vals (by simp only [ids, Tr.flat_map, List.map_map]; exact List.mem_map.2 ⟨a, hm, rfl⟩) _
    refine ⟨⟨ha.ok, ?_, ?_⟩, ?_, ?_⟩
    · intro fr hfr
      obtain ⟨fr0, h0, rfl⟩ := List.mem_map.1 hfr
      rw [f1] at h0
      obtain ⟨fr1, h1, rfl⟩ := List.mem_map.1 h0
      exact fragOk_dropFiles (hall fr1 h1).1
    · intro c
      simp only
      rw [f1, hempty c]
      rfl
    · show absN (frags.map (dropFiles (d.schema.map F))) = absN d.frags
      rw [dropFiles_n, f1]
      unfold absN
      rw [List.map_map]
      rfl
    · unfold Ds.table absCol
      simp only
      rw [spec_altered hi hF (v := fun a => absVals d.frags a.id) (w := fun a => absVals (frags.map (dropFiles (d.schema.map F))) (F a).id)]
      · rw [Tr.map_map]
      · intro a hm e'
        rw [hnew a hm, hvals a hm, if_pos e']
      · intro a hm hn
        rw [hnew a hm, hvals a hm, if_neg hn]
        apply mapM_of_total
        intro c hc
        unfold absVals at hc
        obtain ⟨fr, hfr, hc⟩ := List.mem_flatMap.1 hc
        refine (f2 fr hfr).2 a hm hn c ?_
        have hk : a.kind ≠ .struct := by
          rcases ha.cast a hm with ⟨e', _⟩ | ⟨⟨t0, t, e', _⟩, _⟩
          · exact absurd e' hn
          · rw [e']; simp
        simp only [L, Attr.col, if_neg hk]
        exact hc

end Verif.Evolve
