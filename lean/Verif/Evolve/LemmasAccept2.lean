import Verif.Evolve.LemmasAccept
namespace Verif.Evolve

/-! ### Dropping columns and adding columns of nulls -/

theorem project_some {s : Tr Attr} (hs : Distinct Attr.name s) (hsh : ShapeOk s) : ∀ {paths : List (List Nat)} {acc : Tr Attr}, Sub acc s → Distinct Attr.name acc →
    (∀ q ∈ paths, (fieldAt q s).isSome ∧ wholeLists q s) → ∃ p, project s paths acc = some p
  | [], acc, _, _, _ => ⟨acc, rfl⟩
  | path :: paths, acc, ha, hda, hp => by
    have hh := readFine_has (paths := path :: paths) hp path (by simp)
    obtain ⟨h0, _⟩ := hp path (by simp)
    unfold project
    cases path with
    | nil => cases h0
    | cons x path =>
      simp only
      cases e : byName x s with
      | none =>
        obtain ⟨t, ht⟩ := Option.isSome_iff_exists.1 h0
        obtain ⟨u, hu, _⟩ := fieldAt_root ht
        rw [e] at hu
        cases hu
      | some t =>
        simp only
        have hne : s ≠ .nil := by
          rintro rfl
          cases e
        obtain ⟨k1, k2, k3, k4⟩ := projKids_sub hs hsh hh.1 hh.2 hne
        obtain ⟨m, m1, m2, m3, m4, _⟩ := mergeKids_sub ha k2 hda k3 hs hsh
        rw [m1]
        exact project_some hs hsh m2 m3 (fun q hq => hp q (by simp [hq]))

theorem colAt_table {d : Ds} (q : List Nat) : (colAt q d.table.cols).isSome = (fieldAt q d.schema).isSome := by
  unfold Ds.table
  simp only
  rw [colAt_field (fun _ => rfl), Option.isSome_map]

theorem drop_some {d : Ds} {paths : List (List Nat)} (hi : Inv d) (hw : ∀ q ∈ paths, wholeLists q d.schema) :
    (drop d paths).isSome ↔ (∀ q ∈ paths, (colAt q d.table.cols).isSome) ∧ specDrop paths d.table.cols ≠ .nil := by
  unfold drop
  by_cases hall : ∀ q ∈ paths, (fieldAt q d.schema).isSome
  · rw [if_pos (by rw [List.all_eq_true]; exact hall)]
    have hr : ReadFine d.schema paths := fun q hq => ⟨hall q hq, hw q hq⟩
    obtain ⟨p, e⟩ := project_some hi.schema.distinct hi.schema.shape (acc := .nil) trivial trivial hr
    rw [e]
    simp only
    obtain ⟨h1, h2, h3, h4⟩ := project_ok hi.schema.distinct hi.schema.shape (acc := .nil) trivial trivial (readFine_has hr) e
    obtain ⟨g1, g2, g3⟩ := exclude_spec (f := absCol d.frags) (fun _ => rfl) (top := true) (p := p) hi.schema.distinct hi.schema.shape h4
      (fun x q hq _ => readFine_has hr _ hq) (by
        intro x q hq
        rw [h3, hasAt_nil, Bool.false_or, hq, Bool.true_and])
    have hc : ∀ q ∈ paths, (colAt q d.table.cols).isSome := fun q hq => by rw [colAt_table]; exact hall q hq
    have hn : specDrop paths d.table.cols = .nil ↔ exclude true d.schema p = .nil := by
      unfold Ds.table
      simp only
      rw [← g1, Tr.map_eq_nil]
    cases e2 : exclude true d.schema p with
    | nil => simp [hn, e2]
    | cons a k r =>
      simp only [Option.isSome_some, hn, e2, ne_eq, reduceCtorEq, not_false_eq_true, and_true, true_iff]
      exact hc
  · rw [if_neg (by rw [List.all_eq_true]; exact hall)]
    constructor
    · intro h; cases h
    · rintro ⟨h, _⟩
      exact absurd (fun q hq => by rw [← colAt_table]; exact h q hq) hall

theorem namesNew_table {d : Ds} {new : Tr Attr} : namesNew d.schema new = true ↔ NewNames d.table.cols (new.roots.map (fun a => a.1.name)) := by
  unfold namesNew NewNames Ds.table
  simp only [List.all_eq_true, Bool.not_eq_true', List.any_eq_false, List.mem_map, forall_exists_index, and_imp, beq_iff_eq]
  constructor
  · rintro h x u hu rfl
    rw [colByName_map (fun _ => rfl)]
    cases e : byName u.1.name d.schema with
    | none => rfl
    | some t =>
      exact absurd (byName_mem e).2.symm (h t (byName_mem e).1 u hu)
  · intro h t ht u hu c
    have h1 := h u.1.name u hu rfl
    rw [colByName_map (fun _ => rfl)] at h1
    simp only [Option.map_eq_none_iff] at h1
    unfold byName at h1
    rw [Tr.find?_roots, List.find?_eq_none] at h1
    have := h1 t ht
    simp [c] at this

theorem addNulls_some {d : Ds} {new : Tr Attr} (hi : Inv d) (hl : d.legacy = false) :
    (addNulls d new).isSome ↔ NewNames d.table.cols (new.roots.map (fun a => a.1.name)) ∧ ∀ a ∈ new.flat, a.nullable = true := by
  unfold addNulls
  have hleg : (d.frags.any fun fr => fr.files.any File.legacy) = false := by
    rw [List.any_eq_false]
    intro fr hfr
    rw [Bool.not_eq_true, List.any_eq_false]
    intro f hf
    rw [(hi.frags fr hfr).format f hf, hl]
    simp
  rw [hleg, ← namesNew_table]
  by_cases h1 : namesNew d.schema new = true
  · by_cases h2 : new.flat.all Attr.nullable = true
    · simp only [h1, h2, Bool.not_false, Bool.and_self, if_true, Option.isSome_some, true_iff, true_and]
      exact List.all_eq_true.1 h2
    · have : ¬ ∀ a ∈ new.flat, a.nullable = true := fun c => h2 (List.all_eq_true.2 c)
      simp [h2, this]
  · simp [h1]

/-! ### Renaming columns -/

theorem alterAll_some {cs : Casts} {d : Ds} (hi : Inv d) : ∀ {alts done : List Alt} {st : AltState} {F : Attr → Attr}, AltOk d.maxFieldId d.schema done st F →
    (∀ a ∈ d.schema.flat, (F a).id = a.id) → st.casts = [] → (∀ al ∈ alts, al.cast = none) →
    ((∃ st' F', alterAll cs d.schema st alts = some st' ∧ AltOk d.maxFieldId d.schema (done ++ alts) st' F' ∧ st'.casts = [] ∧
        ∀ a ∈ d.schema.flat, (F' a).id = a.id) ∨ alterAll cs d.schema st alts = none) ∧
    ((alterAll cs d.schema st alts).isSome ↔ ∀ al ∈ alts, ∃ c, colAt al.path d.table.cols = some c ∧ ¬ (c.nullable = true ∧ al.nullable = some false))
  | [], done, st, F, h, hid, hc, _ => by
    refine ⟨Or.inl ⟨st, F, rfl, by rw [List.append_nil]; exact h, hc, hid⟩, ?_⟩
    simp [alterAll]
  | al :: alts, done, st, F, h, hid, hc, hno => by
    have hM : ∀ i ∈ ids d.schema, i ≤ d.maxFieldId := fun i hi => le_maxFieldId hi
    have hcn : al.cast = none := hno al (by simp)
    have htab : colAt al.path d.table.cols = (fieldAt al.path d.schema).map (fun t => absCol d.frags t.1) := by
      unfold Ds.table
      simp only
      rw [colAt_field (fun _ => rfl)]
    unfold alterAll
    cases e0 : alterOne cs d.schema st al with
    | none =>
      simp only [Option.bind_none, Option.isSome_none, Bool.false_eq_true, or_true, true_and, false_iff]
      intro hall
      obtain ⟨c, h1, h2⟩ := hall al (by simp)
      rw [htab] at h1
      unfold alterOne at e0
      cases e1 : fieldAt al.path d.schema with
      | none => rw [e1] at h1; cases h1
      | some t =>
        obtain ⟨src, k⟩ := t
        rw [e1] at h1 e0
        simp only [Option.map_some, Option.some.injEq] at h1
        subst h1
        simp only at e0
        have hcond : ¬ ((src.nullable && al.nullable == some false) = true) := by
          simp only [Bool.and_eq_true, beq_iff_eq]
          exact h2
        rw [if_neg hcond, hcn] at e0
        simp only [Option.map_eq_none_iff] at e0
        rw [h.schema, mutById_nodup _ _ h.nodup, if_pos] at e0
        · cases e0
        · have hm := fieldAt_mem e1
          simp only [ids, Tr.flat_map, List.map_map]
          exact List.mem_map.2 ⟨src, hm, hid src hm⟩
    | some st1 =>
      simp only [Option.bind_some]
      have e0' := e0
      unfold alterOne at e0'
      cases e1 : fieldAt al.path d.schema with
      | none => rw [e1] at e0'; cases e0'
      | some t =>
        obtain ⟨src, k⟩ := t
        rw [e1] at e0'
        simp only at e0'
        split at e0'
        case isTrue => cases e0'
        rename_i hcond
        rw [hcn] at e0'
        simp only at e0'
        obtain ⟨s1, m1, m2⟩ := Option.map_eq_some_iff.1 e0'
        obtain ⟨F1, hF1⟩ := alterOne_ok hi.schema hM h e0
        have hc1 : st1.casts = [] := by rw [← m2]; exact hc
        obtain ⟨x1, x2⟩ := mut_step hi.schema hM h e1 m1
        have hid1 : ∀ a ∈ d.schema.flat, (F1 a).id = a.id := by
          have h5 : d.schema.map F1 = d.schema.map (fun a => if a = src then
              (fun (a : Attr) => { a with name := al.rename.getD a.name, nullable := al.nullable.getD a.nullable }) (F a) else F a) := by
            rw [← hF1.schema, ← m2, ← x2]
          intro a ha
          have h6 : ∀ (s : Tr Attr) (f g : Attr → Attr), s.map f = s.map g → ∀ a ∈ s.flat, f a = g a := by
            intro s f g
            induction s with
            | nil => intro _ a ha; cases ha
            | cons b k r ih1 ih2 =>
              intro he a ha
              simp only [Tr.map, Tr.cons.injEq] at he
              simp only [Tr.flat, List.mem_cons, List.mem_append] at ha
              rcases ha with rfl | ha | ha
              · exact he.1
              · exact ih1 he.2.1 a ha
              · exact ih2 he.2.2 a ha
          rw [h6 _ _ _ h5 a ha]
          split
          · exact hid a ha
          · exact hid a ha
        obtain ⟨r1, r2⟩ := alterAll_some (cs := cs) (alts := alts) hi hF1 hid1 hc1 (fun a ha => hno a (by simp [ha]))
        refine ⟨?_, ?_⟩
        · rw [List.append_assoc] at r1
          exact r1
        · rw [r2]
          constructor
          · intro hall a ha
            rcases List.mem_cons.1 ha with rfl | ha
            · refine ⟨absCol d.frags src, by rw [htab, e1]; rfl, ?_⟩
              simp only [Bool.and_eq_true, beq_iff_eq] at hcond
              exact hcond
            · exact hall a ha
          · intro hall a ha
            exact hall a (by simp [ha])

theorem rename_some {cs : Casts} {past : Nat} {d : Ds} {alts : List Alt} (hi : Inv d) (hno : ∀ al ∈ alts, al.cast = none) (hfine : NoClash cs d alts) :
    (alter cs d alts).isSome ↔ Sensible cs past d.table (.alter alts) := by
  have hstart : AltOk d.maxFieldId d.schema [] ⟨d.schema, [], d.maxFieldId + 1⟩ id :=
    ⟨(Tr.map_id' (fun _ _ => rfl)).symm, by simp only; omega, by rw [show d.schema.map id = d.schema from Tr.map_id' (fun _ _ => rfl)]; exact hi.schema.nodup,
      fun q a k _ => ⟨rfl, rfl, id, Or.inl ⟨rfl, rfl, rfl⟩⟩, fun c hc => by cases hc⟩
  obtain ⟨r1, r2⟩ := alterAll_some (cs := cs) (alts := alts) hi hstart (fun _ _ => rfl) rfl hno
  simp only [List.nil_append] at r1
  have hsens : (∀ al ∈ alts, ∃ c, colAt al.path d.table.cols = some c ∧ ¬ (c.nullable = true ∧ al.nullable = some false) ∧
        ∀ x, al.cast = some x → ∃ t0, c.kind = .leaf t0 ∧ cs.allowed t0 x = true) ↔
      ∀ al ∈ alts, ∃ c, colAt al.path d.table.cols = some c ∧ ¬ (c.nullable = true ∧ al.nullable = some false) := by
    constructor
    · intro h al ha
      obtain ⟨c, h1, h2, _⟩ := h al ha
      exact ⟨c, h1, h2⟩
    · intro h al ha
      obtain ⟨c, h1, h2⟩ := h al ha
      refine ⟨c, h1, h2, ?_⟩
      intro x hx
      rw [hno al ha] at hx
      cases hx
  show _ ↔ _ ∧ _
  rw [hsens, ← r2]
  unfold alter
  rcases r1 with ⟨st, F, e, hF, hc, hid⟩ | e
  · rw [e]
    simp only [Option.isSome_some, true_and]
    have hspec : ∀ v : Attr → List Cell, specAlter cs alts [] (d.schema.map (fun a => a.col (v a))) = some (d.schema.map (fun a => (F a).col (v a))) :=
      fun v => spec_altered hi hF (fun _ _ _ => rfl) (fun a ha hn => absurd (hid a ha) hn)
    have hin := inner_attr (hfine _ (hspec (fun _ => [])))
    have hv : validate st.schema = true ↔ Distinct Attr.name (d.schema.map F) := by
      rw [hF.schema]
      constructor
      · intro hv
        unfold validate at hv
        rw [Bool.and_eq_true, Bool.and_eq_true] at hv
        exact distinct_iff.2 ⟨of_decide_eq_true hv.1.1, hin⟩
      · intro hd
        refine validate_ok hF.nodup ?_ hd
        intro i hii
        simp only [ids, Tr.flat_map, List.map_map] at hii
        obtain ⟨a, ha, rfl⟩ := List.mem_map.1 hii
        simp only [Function.comp]
        rw [hid a ha]
        exact hi.schema.nonneg _ (List.mem_map_of_mem ha)
    have hcols : (∃ cols, specAlter cs alts [] d.table.cols = some cols ∧ Distinct Col.name cols) ↔ Distinct Attr.name (d.schema.map F) := by
      have h1 : specAlter cs alts [] d.table.cols = _ := hspec (fun a => absVals d.frags a.id)
      rw [h1]
      constructor
      · rintro ⟨_, h2, h3⟩
        cases h2
        rw [distinct_map] at h3 ⊢
        exact h3
      · intro h2
        refine ⟨_, rfl, ?_⟩
        rw [distinct_map] at h2 ⊢
        exact h2
    rw [hcols, ← hv]
    split
    · rename_i hc'
      rw [hc]
      simp [hc']
    · rename_i hc'
      simp [hc']
  · rw [e]
    simp

end Verif.Evolve
