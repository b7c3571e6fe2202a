import Verif.Evolve.LemmasRead
namespace Verif.Evolve

/-- A column of a fragment with all its rows. -/
def V (fr : Frag) (a : Attr) : Col := a.col (fr.colVals a.id)

/-- A column of a fragment without the deleted rows. -/
def L (fr : Frag) (a : Attr) : Col := a.col (pickVals (alive fr.phys fr.del) (fr.colVals a.id))

theorem File.lookup_of_mem {f : File} {i : Int} (h : i ∈ f.ids) : ∃ v, f.lookup i = some v := by
  obtain ⟨c, hc, rfl⟩ := List.mem_map.1 h
  unfold File.lookup
  cases e : f.cols.find? (fun d => d.1 == c.1) with
  | none =>
    have := List.find?_eq_none.1 e c hc
    simp at this
  | some d => exact ⟨d.2, rfl⟩

theorem File.mem_of_lookup {f : File} {i : Int} {v : List Cell} (h : f.lookup i = some v) : i ∈ f.ids := by
  unfold File.lookup at h
  cases e : f.cols.find? (fun d => d.1 == i) with
  | none => rw [e] at h; cases h
  | some d =>
    have h1 := List.mem_of_find?_eq_some e
    have h2 := List.find?_some e
    simp only [beq_iff_eq] at h2
    exact List.mem_map.2 ⟨d, h1, h2⟩

theorem File.lookup_none {f : File} {i : Int} (h : i ∉ f.ids) : f.lookup i = none := by
  cases e : f.lookup i with
  | none => rfl
  | some v => exact absurd (File.mem_of_lookup e) h

theorem findSome_file : ∀ {files : List File}, (files.flatMap File.ids).Nodup → ∀ {f : File}, f ∈ files → ∀ {i : Int}, i ∈ f.ids →
    files.findSome? (fun f => f.lookup i) = f.lookup i
  | [], _, _, h, _, _ => by cases h
  | g :: files, hn, f, h, i, hi => by
    rw [List.flatMap_cons, List.nodup_append] at hn
    rw [List.findSome?_cons]
    rcases List.mem_cons.1 h with rfl | h
    · obtain ⟨v, hv⟩ := File.lookup_of_mem hi
      rw [hv]
    · have hg : i ∉ g.ids := fun c => hn.2.2 i c i (List.mem_flatMap.2 ⟨f, h, hi⟩) rfl
      rw [File.lookup_none hg]
      exact findSome_file hn.2.1 h hi

theorem lookup_file {fr : Frag} (hn : (fr.files.flatMap File.ids).Nodup) {f : File} (hf : f ∈ fr.files) {i : Int} (hi : i ∈ f.ids) :
    fr.lookup i = f.lookup i := findSome_file hn hf hi

theorem lookup_none {fr : Frag} {i : Int} (h : i ∉ fr.files.flatMap File.ids) : fr.lookup i = none := by
  unfold Frag.lookup
  rw [List.findSome?_eq_none_iff]
  intro f hf
  exact File.lookup_none (fun c => h (List.mem_flatMap.2 ⟨f, hf, c⟩))

theorem readCols_all (n : Nat) (f : File) : ∀ {R : Tr Attr}, ShapeOk R → (∀ i ∈ ids R, i ∈ f.ids) →
    readCols n f R = some (R.map (fun a => a.col (((f.lookup a.id).getD []).take n)))
  | .nil, _, _ => rfl
  | .cons a k r, hsh, h => by
    simp only [ids_cons, List.mem_cons, List.mem_append] at h
    have hne : ¬ (a.kind = .struct ∧ k = .nil) := by
      intro ⟨h1, h2⟩
      have := hsh.1
      rw [h1] at this
      exact this h2
    unfold readCols
    rw [if_neg hne, readCols_all n f hsh.2.1 (fun i hi => h i (Or.inr (Or.inl hi))), readCols_all n f hsh.2.2 (fun i hi => h i (Or.inr (Or.inr hi)))]
    obtain ⟨v, hv⟩ := File.lookup_of_mem (h _ (Or.inl rfl))
    simp [hv, Tr.map]

theorem mergeCols_disjoint : ∀ {x y : Tr Col}, (∀ t ∈ x.roots, ∀ u ∈ y.roots, t.1.name ≠ u.1.name) → mergeCols x y = x.append y
  | .nil, _, _ => rfl
  | .cons c k r, y, h => by
    unfold mergeCols
    have : colByName c.name y = none := by
      cases e : colByName c.name y with
      | none => rfl
      | some t =>
        obtain ⟨h1, h2⟩ := colByName_mem e
        exact absurd h2.symm (h (c, k) (by simp [Tr.roots]) t h1)
    rw [this]
    simp only [Tr.append]
    rw [mergeCols_disjoint (fun t ht u hu => h t (by simp [Tr.roots, ht]) u hu)]

/-- Batches whose columns have different names. -/
theorem mergeAll_cat (n : Nat) (f : Attr → Col) (hf : ∀ a, (f a).name = a.name) : ∀ {Rs : List (Tr Attr)} {R : Tr Attr},
    ((R.roots ++ Rs.flatMap Tr.roots).map (fun t => t.1.name)).Nodup →
    mergeAll ⟨n, R.map f⟩ (Rs.map (fun R => ⟨n, R.map f⟩)) = some ⟨n, (R.append (Tr.cat Rs)).map f⟩
  | [], R, _ => by simp [mergeAll, Tr.cat, Tr.append_nil]
  | Q :: Rs, R, h => by
    simp only [List.map_cons, mergeAll, if_true]
    rw [mergeCols_disjoint, ← Tr.map_append, mergeAll_cat n f hf]
    · simp [Tr.cat, Tr.append_assoc]
    · rw [Tr.roots_append, List.append_assoc]
      exact h
    · intro t ht u hu
      rw [Tr.roots_map] at ht hu
      obtain ⟨t', ht', rfl⟩ := List.mem_map.1 ht
      obtain ⟨u', hu', rfl⟩ := List.mem_map.1 hu
      simp only [hf]
      rw [List.map_append, List.nodup_append] at h
      exact h.2.2 _ (List.mem_map_of_mem ht') _ (List.mem_map_of_mem (by rw [List.flatMap_cons]; exact List.mem_append_left _ hu'))

theorem sameType_self (f : Attr → Col) (h1 : ∀ a, (f a).name = a.name) (h2 : ∀ a, (f a).kind = a.kind) (h3 : ∀ a, (f a).nullable = a.nullable)
    (a : Attr) (k : Tr Attr) : sameType a k (f a) (k.map f) = true := by
  unfold sameType tyEq Col.attr
  simp only [h2, decide_true, Bool.true_and, Tr.map_map, decide_eq_true_eq]
  apply Tr.map_congr
  intro b _
  simp [h1, h2, h3]

theorem projectCols_map (f : Attr → Col) (h1 : ∀ a, (f a).name = a.name) (h2 : ∀ a, (f a).kind = a.kind) (h3 : ∀ a, (f a).nullable = a.nullable) :
    ∀ {P : Tr Attr} {B : Tr Col}, (∀ t ∈ P.roots, colByName t.1.name B = some (f t.1, t.2.map f)) → Distinct Attr.name P →
    (∀ a ∈ strict P, nullOk a.nullable (f a).vals = true) → projectCols P B = some (P.map f)
  | .nil, _, _, _, _ => rfl
  | .cons a k r, B, h, hd, hn => by
    unfold projectCols
    have h0 := h (a, k) (by simp [Tr.roots])
    simp only at h0
    rw [h0]
    simp only
    rw [projectCols_map f h1 h2 h3 (P := r) (fun t ht => h t (by simp [Tr.roots, ht])) hd.2.2 (fun b hb => hn b (by simp [strict, hb]))]
    have hkids : (if a.kind = .struct then (if (f a).kind = .struct then projectCols k (k.map f) else none)
        else if sameType a k (f a) (k.map f) = true then some (k.map f) else none) = some (k.map f) := by
      by_cases hk : a.kind = .struct
      · rw [if_pos hk, if_pos ((h2 a).trans hk)]
        refine projectCols_map f h1 h2 h3 (P := k) ?_ hd.2.1 ?_
        · intro t ht
          rw [colByName_map h1, byName_of_mem (distinct_names hd.2.1) ht]
          rfl
        · intro b hb
          exact hn b (by simp [strict, hk, hb])
      · rw [if_neg hk, if_pos (sameType_self f h1 h2 h3 a k)]
    rw [hkids]
    simp only
    rw [if_pos (hn a (by simp [strict]))]
    simp only [Tr.map, Option.some.injEq, Tr.cons.injEq, and_true]
    rw [← h1 a, ← h2 a, ← h3 a]

theorem mapM_some' {α β : Type} {f : α → Option β} {g : α → β} : ∀ {l : List α}, (∀ a ∈ l, f a = some (g a)) → l.mapM f = some (l.map g)
  | [], _ => rfl
  | a :: l, h => by
    rw [List.mapM_cons, h a (by simp), mapM_some' (fun b hb => h b (by simp [hb]))]
    rfl

theorem filterMap_if {α β : Type} (p : α → Bool) (g : α → β) (l : List α) :
    (l.map (fun a => if p a then none else some (g a))).filterMap id = (l.filter (fun a => !p a)).map g := by
  induction l with
  | nil => rfl
  | cons a l ih =>
    rw [List.map_cons, List.filter_cons]
    cases h : p a
    · simp [ih]
    · simp [ih]

section Frag
variable {lg : Bool} {s p : Tr Attr} {fr : Frag}

theorem colVals_len (hf : FragOk lg s fr) {a : Attr} (ha : a ∈ s.flat) (hk : a.kind ≠ .struct) : (fr.colVals a.id).length = fr.phys := by
  unfold Frag.colVals
  cases e : fr.lookup a.id with
  | none => simp
  | some v => exact hf.len a ha hk v e

theorem readFile_ok (hs : SchemaOk s) (hf : FragOk lg s fr) (hp : Sub p s) (hd : Distinct Attr.name p) (all : Bool) {f : File} (hm : f ∈ fr.files) :
    readFile all s p fr.phys f = some (if perFile s p f == .nil then none else some ⟨fr.phys, (perFile s p f).map (V fr)⟩) := by
  have hr := (perFile_roots hs hf hp hd hm).2
  unfold readFile
  cases e : perFile s p f with
  | nil => rfl
  | cons a k r =>
    simp only
    rw [← e]
    have hids : ∀ i ∈ ids (perFile s p f), i ∈ f.ids := by
      intro i hi
      obtain ⟨t, ht, hit⟩ := mem_ids_root.1 hi
      obtain ⟨h1, h2⟩ := (hr t).1 ht
      rcases in_or_out_sub hf hp h1 hm with h | h
      · exact h i hit
      · exact absurd h2 (h _ (mem_rootIds_self t))
    have hshape : ShapeOk (perFile s p f) := sub_shape (sub_of (fun t ht => sub_root hp ((hr t).1 ht).1)) hs.shape
    have hn : (if all then f.rows else fr.phys) = fr.phys := by
      split
      · exact hf.rows f hm
      · rfl
    have hne : (perFile s p f == .nil) = false := by rw [e]; rfl
    simp only [hn]
    rw [if_pos (Nat.le_of_eq (hf.rows f hm).symm), hne, readCols_all _ _ hshape hids]
    simp only [Option.map_some, Bool.false_eq_true, if_false, Option.some.injEq, Data.mk.injEq, true_and]
    apply Tr.map_congr
    intro b hb
    have hbf : b.id ∈ f.ids := hids _ (List.mem_map_of_mem hb)
    have hbs : b ∈ s.flat := by
      obtain ⟨t, ht, h⟩ := Tr.mem_flat.1 hb
      exact sub_flat hp (Tr.mem_flat.2 ⟨t, ((hr t).1 ht).1, h⟩)
    obtain ⟨v, hv⟩ := File.lookup_of_mem hbf
    unfold V Frag.colVals
    rw [lookup_file hf.nodup hm hbf, hv]
    simp only [Option.getD_some]
    unfold Attr.col
    by_cases hk : b.kind = .struct
    · simp [hk]
    · have := hf.len b hbs hk v (by rw [lookup_file hf.nodup hm hbf, hv])
      rw [List.take_of_length_le (Nat.le_of_eq this)]

theorem pick_nullOk {n : Nat} {b : Bool} {v : List Cell} (h : nullOk b v = true) {rows : List Nat} (hl : v.length = n) (hr : ∀ i ∈ rows, i < n) :
    nullOk b (pickVals rows v) = true := by
  unfold nullOk pickVals at *
  simp only [Bool.or_eq_true, List.all_eq_true] at h ⊢
  rcases h with h | h
  · exact Or.inl h
  · right
    intro x hx
    obtain ⟨i, hi, rfl⟩ := List.mem_map.1 hx
    have : i < v.length := hl ▸ hr i hi
    rw [List.getD_eq_getElem?_getD, List.getElem?_eq_getElem this]
    exact h _ (List.getElem_mem this)

theorem alive_lt {n i : Nat} {del : List Nat} (h : i ∈ alive n del) : i < n := by
  unfold alive at h
  exact List.mem_range.1 (List.mem_filter.1 h).1

theorem colVals_nullOk (hf : FragOk lg s fr) {a : Attr} (ha : a ∈ strict s) : nullOk a.nullable (V fr a).vals = true := by
  unfold V Attr.col
  by_cases hk : a.kind = .struct
  · simp [hk, nullOk]
  simp only [hk, if_false]
  cases e : fr.lookup a.id with
  | some v =>
    have := hf.nonnull a ha hk v e
    unfold Frag.colVals
    rw [e]
    exact this
  | none =>
    obtain ⟨t, ht, h⟩ := mem_strict_root.1 ha
    rcases hf.whole t ht with ⟨f, hm, hin⟩ | ⟨_, h2, _⟩
    · have hi : a.id ∈ rootIds t := by
        simp only [rootIds, List.mem_cons]
        rcases h with rfl | ⟨_, h⟩
        · exact Or.inl rfl
        · right
          have : ∀ (k : Tr Attr), a ∈ strict k → a.id ∈ ids k := by
            intro k
            induction k with
            | nil => intro h; cases h
            | cons b l r ih1 ih2 =>
              intro h
              simp only [strict, List.mem_cons, List.mem_append] at h
              simp only [ids_cons, List.mem_cons, List.mem_append]
              rcases h with rfl | h | h
              · exact Or.inl rfl
              · split at h
                · exact Or.inr (Or.inl (ih1 h))
                · cases h
              · exact Or.inr (Or.inr (ih2 h))
          exact this _ h
      obtain ⟨v, hv⟩ := File.lookup_of_mem (hin _ hi)
      rw [lookup_file hf.nodup hm (hin _ hi), hv] at e
      cases e
    · have : a.nullable = true := by
        apply h2
        rcases h with rfl | ⟨hk, h⟩
        · simp
        · simp [hk, h]
      simp [this, nullOk]

theorem L_nullOk (hf : FragOk lg s fr) {a : Attr} (ha : a ∈ strict s) (hfl : a ∈ s.flat) : nullOk a.nullable (L fr a).vals = true := by
  have h := colVals_nullOk hf ha
  unfold V L Attr.col at *
  by_cases hk : a.kind = .struct
  · simp [hk, nullOk]
  simp only [hk, if_false] at h ⊢
  exact pick_nullOk h (colVals_len hf hfl hk) (fun i hi => alive_lt hi)

theorem strict_flat : ∀ {s : Tr Attr} {a : Attr}, a ∈ strict s → a ∈ s.flat
  | .nil, _, h => by cases h
  | .cons b k r, a, h => by
    simp only [strict, List.mem_cons, List.mem_append] at h
    simp only [Tr.flat, List.mem_cons, List.mem_append]
    rcases h with h | h | h
    · exact Or.inl h
    · split at h
      · exact Or.inr (Or.inl (strict_flat h))
      · cases h
    · exact Or.inr (Or.inr (strict_flat h))

/-- The fields of the files and those of the null reader together are the fields asked for. -/
theorem parts (hs : SchemaOk s) (hf : FragOk lg s fr) (hp : Sub p s) (hd : Distinct Attr.name p) :
    (((fr.files.map (perFile s p) ++ [missingFields s p fr]).flatMap Tr.roots).map (fun t => t.1.name)).Nodup ∧
    ∀ t ∈ p.roots, t ∈ (fr.files.map (perFile s p) ++ [missingFields s p fr]).flatMap Tr.roots := by
  have hmiss := missing_roots hs hf hp hd
  have hdn := distinct_names hd
  have same : ∀ t ∈ p.roots, ∀ u ∈ p.roots, t.1.name = u.1.name → t = u := by
    intro t ht u hu e
    have h1 := byName_of_mem hdn ht
    have h2 := byName_of_mem hdn hu
    rw [e, h2] at h1
    exact (Option.some.inj h1).symm
  constructor
  · rw [List.flatMap_append, List.map_append, List.nodup_append]
    refine ⟨?_, ?_, ?_⟩
    · rw [List.nodup_iff_pairwise_ne, List.pairwise_map, List.pairwise_flatMap]
      constructor
      · intro R hR
        obtain ⟨f, hm, rfl⟩ := List.mem_map.1 hR
        have := (perFile_roots hs hf hp hd hm).1
        rw [List.nodup_iff_pairwise_ne, List.pairwise_map] at this
        exact this
      · rw [List.pairwise_map]
        have hn := hf.nodup
        rw [List.nodup_iff_pairwise_ne, List.pairwise_flatMap] at hn
        refine List.Pairwise.imp_of_mem ?_ hn.2
        intro f g hfm hgm h t ht u hu e
        obtain ⟨h1, h2⟩ := ((perFile_roots hs hf hp hd hfm).2 t).1 ht
        obtain ⟨h3, h4⟩ := ((perFile_roots hs hf hp hd hgm).2 u).1 hu
        have := same t h1 u h3 e
        subst this
        exact h _ h2 _ h4 rfl
    · simp only [List.flatMap_cons, List.flatMap_nil, List.append_nil]
      rw [hmiss]
      exact List.Nodup.sublist (List.Sublist.map _ List.filter_sublist) hdn
    · intro x hx y hy e
      obtain ⟨t, ht, rfl⟩ := List.mem_map.1 hx
      obtain ⟨u, hu, rfl⟩ := List.mem_map.1 hy
      simp only [List.flatMap_cons, List.flatMap_nil, List.append_nil] at hu
      rw [hmiss] at hu
      obtain ⟨hu, hc⟩ := List.mem_filter.1 hu
      obtain ⟨R, hR, ht⟩ := List.mem_flatMap.1 ht
      obtain ⟨f, hm, rfl⟩ := List.mem_map.1 hR
      obtain ⟨h1, h2⟩ := ((perFile_roots hs hf hp hd hm).2 t).1 ht
      have := same t h1 u hu e
      subst this
      simp only [Bool.not_eq_true', Bool.eq_false_iff, ne_eq, List.contains_iff_mem] at hc
      exact hc (List.mem_flatMap.2 ⟨f, hm, h2⟩)
  · intro t ht
    rw [List.flatMap_append, List.mem_append]
    by_cases h : t.1.id ∈ fr.files.flatMap File.ids
    · left
      obtain ⟨f, hm, hi⟩ := List.mem_flatMap.1 h
      exact List.mem_flatMap.2 ⟨perFile s p f, List.mem_map_of_mem hm, ((perFile_roots hs hf hp hd hm).2 t).2 ⟨ht, hi⟩⟩
    · right
      simp only [List.flatMap_cons, List.flatMap_nil, List.append_nil]
      rw [hmiss]
      refine List.mem_filter.2 ⟨ht, ?_⟩
      simp only [Bool.not_eq_true', Bool.eq_false_iff, ne_eq, List.contains_iff_mem]
      exact h

theorem missing_flat (hs : SchemaOk s) (hf : FragOk lg s fr) (hp : Sub p s) (hd : Distinct Attr.name p) {a : Attr}
    (ha : a ∈ (missingFields s p fr).flat) : fr.lookup a.id = none := by
  apply lookup_none
  intro c
  obtain ⟨t, ht, h⟩ := Tr.mem_flat.1 ha
  rw [missing_roots hs hf hp hd] at ht
  obtain ⟨ht, hc⟩ := List.mem_filter.1 ht
  obtain ⟨f, hm, hi⟩ := List.mem_flatMap.1 c
  simp only [Bool.not_eq_true', Bool.eq_false_iff, ne_eq, List.contains_iff_mem] at hc
  have hroot : a.id ∈ rootIds t := by
    simp only [rootIds, List.mem_cons]
    rcases h with rfl | h
    · exact Or.inl rfl
    · exact Or.inr (List.mem_map_of_mem h)
  rcases in_or_out_sub hf hp ht hm with h' | h'
  · exact hc (List.mem_flatMap.2 ⟨f, hm, h' _ (mem_rootIds_self t)⟩)
  · exact h' _ hroot hi

/-- A missing field is nullable and the format is not the legacy one. -/
theorem missing_root (hs : SchemaOk s) (hf : FragOk lg s fr) (hp : Sub p s) (hd : Distinct Attr.name p) {t : Attr × Tr Attr}
    (ht : t ∈ (missingFields s p fr).roots) : t.1.nullable = true ∧ lg = false := by
  rw [missing_roots hs hf hp hd] at ht
  obtain ⟨ht, hc⟩ := List.mem_filter.1 ht
  simp only [Bool.not_eq_true', Bool.eq_false_iff, ne_eq, List.contains_iff_mem] at hc
  obtain ⟨sk, h1, _, _⟩ := sub_rootIds hp ht
  rcases hf.whole _ h1 with ⟨f, hm, hin⟩ | ⟨_, h2, h3⟩
  · exact absurd (List.mem_flatMap.2 ⟨f, hm, hin _ (mem_rootIds_self _)⟩) hc
  · exact ⟨h2 t.1 (by simp), h3⟩

/-- Reading a fragment gives the columns asked for, without the deleted rows. -/
theorem readFrag_ok (hs : SchemaOk s) (hf : FragOk lg s fr) (hp : Sub p s) (hd : Distinct Attr.name p) (all : Bool)
    (ha : all = true → fr.del = [] ∨ ∀ t ∈ p.roots, t.1.id ∈ fr.files.flatMap File.ids) :
    readFrag all s p fr = some ⟨(alive fr.phys fr.del).length, p.map (L fr)⟩ := by
  unfold readFrag
  cases e : p with
  | nil => rfl
  | cons a0 k0 r0 =>
  simp only
  rw [← e]
  have hmiss := missing_roots hs hf hp hd
  rw [mapM_some' (fun f hm => readFile_ok hs hf hp hd all hm)]
  simp only
  rw [show (fr.files.map fun a => if (perFile s p a == Tr.nil) = true then none else some ({ n := fr.phys, cols := (perFile s p a).map (V fr) } : Data)) =
    (fr.files.map (perFile s p)).map (fun R => if R == .nil then none else some ({ n := fr.phys, cols := R.map (V fr) } : Data)) by rw [List.map_map]; rfl]
  rw [filterMap_if]
  -- the formats
  have hleg : ((fr.files.find? (fun f => perFile s p f != .nil)).any File.legacy &&
      !((fr.files.filter (fun f => perFile s p f != .nil)).all File.legacy && missingFields s p fr == .nil)) = false := by
    cases lg with
    | false =>
      rw [Bool.and_eq_false_iff]
      left
      cases e1 : fr.files.find? (fun f => perFile s p f != .nil) with
      | none => rfl
      | some f => exact hf.format f (List.mem_of_find?_eq_some e1)
    | true =>
      rw [Bool.and_eq_false_iff]
      right
      simp only [Bool.not_eq_false', Bool.and_eq_true, List.all_eq_true, beq_iff_eq]
      refine ⟨fun f hm => hf.format f (List.mem_filter.1 hm).1, ?_⟩
      cases e1 : missingFields s p fr with
      | nil => rfl
      | cons a k r =>
        have := missing_root hs hf hp hd (t := (a, k)) (by rw [e1]; simp [Tr.roots])
        cases this.2
  rw [if_neg (by rw [hleg]; simp)]
  have hnull : (if (missingFields s p fr == .nil) = true then some [] else
      (nullBatch (missingFields s p fr) (if all = true then fr.live else fr.phys)).map (fun d => [d])) =
      some (([missingFields s p fr].filter (fun R => !(R == .nil))).map (fun R => (⟨fr.phys, R.map (V fr)⟩ : Data))) := by
    by_cases e1 : missingFields s p fr == .nil
    · simp [e1]
    · rw [if_neg e1]
      have hn : (if all = true then fr.live else fr.phys) = fr.phys := by
        cases all with
        | false => rfl
        | true =>
          rcases ha rfl with h | h
          · simp [Frag.live, h]
          · exfalso
            apply e1
            rw [beq_iff_eq, ← Tr.roots_eq_nil, hmiss, List.filter_eq_nil_iff]
            intro t ht
            simpa using h t ht
      rw [hn]
      unfold nullBatch
      rw [if_pos]
      · simp only [Option.map_some, Bool.not_eq_true] at e1 ⊢
        simp only [List.filter_cons, e1, Bool.not_false, if_true, List.filter_nil, List.map_cons, List.map_nil]
        congr 3
        apply Tr.map_congr
        intro a ha
        unfold V Frag.colVals
        rw [missing_flat hs hf hp hd ha]
        rfl
      · rw [List.all_eq_true]
        intro t ht
        rw [(missing_root hs hf hp hd ht).1]
        rfl
  rw [hnull]
  simp only
  rw [← List.map_append, ← List.filter_append]
  obtain ⟨hnd, hall⟩ := parts hs hf hp hd
  generalize fr.files.map (perFile s p) ++ [missingFields s p fr] = Rs at hnd hall
  have hfl : (Rs.filter (fun R => !(R == .nil))).flatMap Tr.roots = Rs.flatMap Tr.roots := by
    clear hnd hall hnull hleg
    induction Rs with
    | nil => rfl
    | cons R Rs ih =>
      rw [List.filter_cons]
      cases h : R == .nil
      · simp only [Bool.not_false, if_true, List.flatMap_cons, ih]
      · rw [beq_iff_eq] at h
        subst h
        simp [ih, Tr.roots]
  rw [← hfl] at hnd hall
  generalize Rs.filter (fun R => !(R == .nil)) = Qs at hnd hall
  cases Qs with
  | nil =>
    have := hall (a0, k0) (by rw [e]; simp [Tr.roots])
    simp at this
  | cons Q Qs =>
    simp only [List.map_cons]
    rw [mergeAll_cat fr.phys (V fr) (fun a => rfl) (by rw [List.flatMap_cons] at hnd; exact hnd)]
    simp only [Data.pick, pickCols, Tr.map_map]
    rw [projectCols_map (L fr) (fun _ => rfl) (fun _ => rfl) (fun _ => rfl)]
    · rfl
    · intro t ht
      have hL : (Q.append (Tr.cat Qs)).map (fun a => ({ V fr a with vals := if (V fr a).kind = .struct then [] else pickVals (alive fr.phys fr.del) (V fr a).vals } : Col)) = (Q.append (Tr.cat Qs)).map (L fr) := by
        apply Tr.map_congr
        intro a _
        unfold V L Attr.col
        by_cases hk : a.kind = .struct <;> simp [hk]
      rw [hL, colByName_map (fun _ => rfl), byName_of_mem (t := t)]
      · rfl
      · rw [Tr.roots_append, Tr.roots_cat]
        rw [List.flatMap_cons] at hnd
        exact hnd
      · rw [Tr.roots_append, Tr.roots_cat]
        have := hall t ht
        rw [List.flatMap_cons] at this
        exact this
    · exact hd
    · intro a ha
      exact L_nullOk hf (sub_strict hp ha) (sub_flat hp (strict_flat ha))

end Frag
end Verif.Evolve
