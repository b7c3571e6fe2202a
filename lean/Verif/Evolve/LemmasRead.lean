import Verif.Evolve.LemmasTree
namespace Verif.Evolve

/-! ### The invariant of a fragment -/

/-- The stored cells of a field. -/
def Frag.lookup (fr : Frag) (i : Int) : Option (List Cell) := fr.files.findSome? (fun f => f.lookup i)

/-- The cells of a field, nulls if it is not stored. -/
def Frag.colVals (fr : Frag) (i : Int) : List Cell := (fr.lookup i).getD (List.replicate fr.phys none)

/-- A field with all its parts is in the file. -/
def inFile (t : Attr × Tr Attr) (f : File) : Prop := ∀ i ∈ rootIds t, i ∈ f.ids

def Stored (t : Attr × Tr Attr) (fr : Frag) : Prop := ∃ f ∈ fr.files, inFile t f

structure FragOk (lg : Bool) (s : Tr Attr) (fr : Frag) : Prop where
  nodup : (fr.files.flatMap File.ids).Nodup
  rows : ∀ f ∈ fr.files, f.rows = fr.phys
  format : ∀ f ∈ fr.files, f.legacy = lg
  whole : ∀ t ∈ s.roots, Stored t fr ∨
    ((∀ f ∈ fr.files, ∀ i ∈ rootIds t, i ∉ f.ids) ∧ (∀ a ∈ t.1 :: (if t.1.kind = .struct then strict t.2 else []), a.nullable = true) ∧ lg = false)
  len : ∀ a ∈ s.flat, a.kind ≠ .struct → ∀ v, fr.lookup a.id = some v → v.length = fr.phys
  nonnull : ∀ a ∈ strict s, a.kind ≠ .struct → ∀ v, fr.lookup a.id = some v → nullOk a.nullable v = true
  del : fr.del.Nodup ∧ ∀ i ∈ fr.del, i < fr.phys

structure SchemaOk (s : Tr Attr) : Prop where
  nodup : (ids s).Nodup
  nonneg : ∀ i ∈ ids s, 0 ≤ i
  distinct : Distinct Attr.name s
  shape : ShapeOk s

/-! ### Projections -/

/-- `p` is made of fields of `s`, with lists whole. -/
def Sub : Tr Attr → Tr Attr → Prop
  | .nil, _ => True
  | .cons a k r, s => (∃ sk, byName a.name s = some (a, sk) ∧ (if a.kind = .struct then k ≠ .nil ∧ Sub k sk else k = sk)) ∧ Sub r s

theorem sub_root : ∀ {p s : Tr Attr}, Sub p s → ∀ {t}, t ∈ p.roots →
    ∃ sk, byName t.1.name s = some (t.1, sk) ∧ (if t.1.kind = .struct then t.2 ≠ .nil ∧ Sub t.2 sk else t.2 = sk)
  | .nil, _, _, _, ht => by cases ht
  | .cons a k r, s, h, t, ht => by
    simp only [Tr.roots, List.mem_cons] at ht
    rcases ht with rfl | ht
    · exact h.1
    · exact sub_root h.2 ht

theorem sub_of : ∀ {p s : Tr Attr}, (∀ t ∈ p.roots, ∃ sk, byName t.1.name s = some (t.1, sk) ∧
    (if t.1.kind = .struct then t.2 ≠ .nil ∧ Sub t.2 sk else t.2 = sk)) → Sub p s
  | .nil, _, _ => trivial
  | .cons a k r, s, h => ⟨h (a, k) (by simp [Tr.roots]), sub_of (fun t ht => h t (by simp [Tr.roots, ht]))⟩

theorem sub_refl : ∀ (n : Nat) {s : Tr Attr}, s.flat.length ≤ n → Distinct Attr.name s → ShapeOk s → Sub s s := by
  intro n
  induction n with
  | zero =>
    intro s h _ _
    cases s with
    | nil => trivial
    | cons a k r => simp [Tr.flat] at h
  | succ n ih =>
    intro s h hd hs
    apply sub_of
    intro t ht
    refine ⟨t.2, byName_of_mem (distinct_names hd) ht, ?_⟩
    split
    · rename_i hk
      refine ⟨shape_struct hs ht hk, ih ?_ (distinct_kids hd ht) (shape_kids hs ht)⟩
      have : ∀ (s : Tr Attr), t ∈ s.roots → t.2.flat.length < s.flat.length := by
        intro s
        induction s with
        | nil => intro h; cases h
        | cons a k r _ ih =>
          intro h
          simp only [Tr.roots, List.mem_cons] at h
          simp only [Tr.flat, List.length_cons, List.length_append]
          rcases h with rfl | h
          · simp only; omega
          · have := ih h; omega
      have := this s ht
      omega
    · rfl

theorem Sub.refl {s : Tr Attr} (h : SchemaOk s) : Sub s s := sub_refl _ (Nat.le_refl _) h.distinct h.shape

theorem sub_shape : ∀ {p s : Tr Attr}, Sub p s → ShapeOk s → ShapeOk p
  | .nil, _, _, _ => trivial
  | .cons a k r, s, ⟨⟨sk, h1, h2⟩, h3⟩, hs => by
    have hm := (byName_mem h1).1
    have hroot : ∀ {s : Tr Attr}, ShapeOk s → ∀ {t}, t ∈ s.roots → (match t.1.kind with
      | .leaf _ => t.2 = .nil
      | .list => ∃ b l, t.2 = .cons b l .nil
      | .struct => t.2 ≠ .nil) := by
      intro s
      induction s with
      | nil => intro _ t ht; cases ht
      | cons b l q _ ih =>
        intro h t ht
        simp only [Tr.roots, List.mem_cons] at ht
        rcases ht with rfl | ht
        · exact h.1
        · exact ih h.2.2 ht
    have h0 := hroot hs hm
    refine ⟨?_, ?_, sub_shape h3 hs⟩
    · split at h2
      · rename_i hk
        rw [hk]
        exact h2.1
      · rw [h2]
        exact h0
    · split at h2
      · exact sub_shape h2.2 (shape_kids hs hm)
      · rw [h2]
        exact shape_kids hs hm

theorem sub_flat : ∀ {p s : Tr Attr}, Sub p s → ∀ {a}, a ∈ p.flat → a ∈ s.flat
  | .nil, _, _, _, h => by cases h
  | .cons a k r, s, ⟨⟨sk, h1, h2⟩, h3⟩, b, hb => by
    simp only [Tr.flat, List.mem_cons, List.mem_append] at hb
    have hm := (byName_mem h1).1
    rcases hb with rfl | hb | hb
    · exact Tr.root_mem_flat hm
    · refine Tr.kid_mem_flat hm ?_
      split at h2
      · exact sub_flat h2.2 hb
      · subst h2; exact hb
    · exact sub_flat h3 hb

theorem mem_strict_root {s : Tr Attr} {a : Attr} : a ∈ strict s ↔ ∃ t ∈ s.roots, a = t.1 ∨ (t.1.kind = .struct ∧ a ∈ strict t.2) := by
  induction s with
  | nil => simp [strict, Tr.roots]
  | cons b k r _ ih =>
    simp only [strict, Tr.roots, List.mem_cons, List.mem_append, ih]
    constructor
    · rintro (e | h | ⟨x, hx, h⟩)
      · exact ⟨(b, k), Or.inl rfl, Or.inl e⟩
      · refine ⟨(b, k), Or.inl rfl, Or.inr ?_⟩
        by_cases hk : b.kind = .struct
        · rw [if_pos hk] at h; exact ⟨hk, h⟩
        · rw [if_neg hk] at h; cases h
      · exact ⟨x, Or.inr hx, h⟩
    · rintro ⟨x, rfl | hx, h⟩
      · rcases h with h | ⟨hk, h⟩
        · exact Or.inl h
        · refine Or.inr (Or.inl ?_)
          rw [if_pos hk]; exact h
      · exact Or.inr (Or.inr ⟨x, hx, h⟩)

theorem sub_strict : ∀ {p s : Tr Attr}, Sub p s → ∀ {a}, a ∈ strict p → a ∈ strict s
  | .nil, _, _, _, h => by cases h
  | .cons a k r, s, ⟨⟨sk, h1, h2⟩, h3⟩, b, hb => by
    simp only [strict, List.mem_cons, List.mem_append] at hb
    have hm := (byName_mem h1).1
    rcases hb with rfl | hb | hb
    · exact mem_strict_root.2 ⟨_, hm, Or.inl rfl⟩
    · by_cases hk : a.kind = .struct
      · rw [if_pos hk] at h2 hb
        exact mem_strict_root.2 ⟨_, hm, Or.inr ⟨hk, sub_strict h2.2 hb⟩⟩
      · rw [if_neg hk] at hb; cases hb
    · exact sub_strict h3 hb

theorem sub_ids {p s : Tr Attr} (h : Sub p s) {i : Int} (hi : i ∈ ids p) : i ∈ ids s := by
  simp only [ids, List.mem_map] at hi ⊢
  obtain ⟨a, ha, rfl⟩ := hi
  exact ⟨a, sub_flat h ha, rfl⟩

/-- The ids of a projected field are among those of the field. -/
theorem sub_rootIds {p s : Tr Attr} (h : Sub p s) {t : Attr × Tr Attr} (ht : t ∈ p.roots) :
    ∃ sk, (t.1, sk) ∈ s.roots ∧ byName t.1.name s = some (t.1, sk) ∧ ∀ i ∈ rootIds t, i ∈ rootIds (t.1, sk) := by
  obtain ⟨sk, h1, h2⟩ := sub_root h ht
  refine ⟨sk, (byName_mem h1).1, h1, ?_⟩
  intro i hi
  simp only [rootIds, List.mem_cons] at hi ⊢
  rcases hi with hi | hi
  · exact Or.inl hi
  · right
    split at h2
    · exact sub_ids h2.2 hi
    · subst h2; exact hi

theorem interKids_sub : ∀ {p s : Tr Attr}, Sub p s → interKids p s = p
  | .nil, _, _ => rfl
  | .cons a k r, s, ⟨⟨sk, h1, h2⟩, h3⟩ => by
    have ih := interKids_sub h3
    unfold interKids
    rw [h1]
    simp only
    by_cases hk : a.kind = .struct
    · rw [if_pos hk] at h2
      rw [if_pos ⟨hk, hk⟩, interKids_sub h2.2, ih]
    · rw [if_neg hk] at h2
      subst h2
      rw [if_neg (fun c => hk c.1), if_pos (by simp [tyEq]), ih]

/-! ### The fields of each file -/

theorem projectByIds_all (l : List Int) (all : Bool) : ∀ {s : Tr Attr}, (∀ i ∈ ids s, i ∈ l) → projectByIds l all s = s
  | .nil, _ => rfl
  | .cons a k r, h => by
    simp only [ids_cons, List.mem_cons, List.mem_append] at h
    unfold projectByIds
    rw [projectByIds_all l all (fun i hi => h i (Or.inr (Or.inl hi))), projectByIds_all l all (fun i hi => h i (Or.inr (Or.inr hi)))]
    have : l.contains a.id = true := List.contains_iff_mem.2 (h _ (Or.inl rfl))
    simp only [this, Bool.true_and]
    split
    · rfl
    · rename_i hc
      rw [if_neg]
      intro e
      rw [e] at hc
      simp at hc

theorem projectByIds_none (l : List Int) (all : Bool) : ∀ {s : Tr Attr}, (∀ i ∈ ids s, i ∉ l) → projectByIds l all s = .nil
  | .nil, _ => rfl
  | .cons a k r, h => by
    simp only [ids_cons, List.mem_cons, List.mem_append] at h
    unfold projectByIds
    rw [projectByIds_none l all (fun i hi => h i (Or.inr (Or.inl hi))), projectByIds_none l all (fun i hi => h i (Or.inr (Or.inr hi)))]
    have : l.contains a.id = false := by
      rw [Bool.eq_false_iff]
      intro c
      exact h _ (Or.inl rfl) (List.contains_iff_mem.1 c)
    rw [this]
    rfl

theorem projectByIds_roots (l : List Int) (all : Bool) : ∀ {s : Tr Attr},
    (∀ t ∈ s.roots, (∀ i ∈ rootIds t, i ∈ l) ∨ (∀ i ∈ rootIds t, i ∉ l)) → (projectByIds l all s).roots = s.roots.filter (fun t => l.contains t.1.id)
  | .nil, _ => rfl
  | .cons a k r, h => by
    have ih := projectByIds_roots l all (s := r) (fun t ht => h t (by simp [Tr.roots, ht]))
    have h0 := h (a, k) (by simp [Tr.roots])
    simp only [rootIds, List.mem_cons, forall_eq_or_imp] at h0
    unfold projectByIds
    simp only [Tr.roots, List.filter_cons]
    rcases h0 with ⟨h1, h2⟩ | ⟨h1, h2⟩
    · rw [projectByIds_all l all h2]
      have : l.contains a.id = true := List.contains_iff_mem.2 h1
      simp only [this, Bool.true_and, if_true]
      split
      · simp [Tr.roots, ih]
      · rename_i hc
        rw [if_neg]
        · simp [Tr.roots, ih]
        · intro e
          rw [e] at hc
          simp at hc
    · rw [projectByIds_none l all h2]
      have : l.contains a.id = false := by
        rw [Bool.eq_false_iff]
        intro c
        exact h1 (List.contains_iff_mem.1 c)
      rw [this, ← ih]
      rfl

theorem interTop_roots (p : Tr Attr) : ∀ {f : Tr Attr},
    (∀ t ∈ f.roots, ∀ u, byName t.1.name p = some u → u.1.kind = .struct → t.1.kind = .struct → interKids u.2 t.2 = u.2) →
    (interTop p f).roots = f.roots.filterMap (fun t => byName t.1.name p)
  | .nil, _ => rfl
  | .cons o k r, h => by
    have ih := interTop_roots p (f := r) (fun t ht => h t (by simp [Tr.roots, ht]))
    have h0 := h (o, k) (by simp [Tr.roots])
    simp only at h0
    unfold interTop
    simp only [Tr.roots, List.filterMap_cons]
    cases hb : byName o.name p with
    | none => exact ih
    | some u =>
      obtain ⟨a, ak⟩ := u
      simp only
      split
      · rename_i hc
        have := h0 _ hb hc.1 hc.2
        simp only at this
        simp [Tr.roots, ih, this]
      · simp [Tr.roots, ih]

theorem filterMap_names {α : Type} {name : α → Nat} {f : α → Option α} (hf : ∀ a b, f a = some b → name b = name a) :
    ∀ {l : List α}, (l.map name).Nodup → ((l.filterMap f).map name).Nodup
  | [], _ => List.nodup_nil
  | a :: l, h => by
    rw [List.map_cons, List.nodup_cons] at h
    rw [List.filterMap_cons]
    cases e : f a with
    | none => exact filterMap_names hf h.2
    | some b =>
      simp only [List.map_cons, List.nodup_cons]
      refine ⟨?_, filterMap_names hf h.2⟩
      rw [hf _ _ e]
      intro c
      obtain ⟨x, hx, hn⟩ := List.mem_map.1 c
      obtain ⟨y, hy, hxy⟩ := List.mem_filterMap.1 hx
      exact h.1 (List.mem_map.2 ⟨y, hy, by rw [← hn, hf _ _ hxy]⟩)

section Frag
variable {legacy : Bool} {s p : Tr Attr} {fr : Frag}

theorem in_or_out (hf : FragOk legacy s fr) {t : Attr × Tr Attr} (ht : t ∈ s.roots) {f : File} (hm : f ∈ fr.files) :
    (∀ i ∈ rootIds t, i ∈ f.ids) ∨ (∀ i ∈ rootIds t, i ∉ f.ids) := by
  rcases hf.whole t ht with ⟨g, hg, h⟩ | h
  · by_cases e : g = f
    · left; exact e ▸ h
    · right
      intro i hi c
      -- the same id in two files
      have hn := hf.nodup
      obtain ⟨a, b, hab⟩ := List.append_of_mem hg
      rw [hab] at hn hm
      rw [List.flatMap_append, List.flatMap_cons, List.nodup_append] at hn
      obtain ⟨_, h2, h3⟩ := hn
      rw [List.nodup_append] at h2
      rcases List.mem_append.1 hm with hm | hm
      · exact h3 i (List.mem_flatMap.2 ⟨f, hm, c⟩) i (List.mem_append_left _ (h i hi)) rfl
      · rcases List.mem_cons.1 hm with hm | hm
        · exact e hm.symm
        · exact h2.2.2 i (h i hi) i (List.mem_flatMap.2 ⟨f, hm, c⟩) rfl
  · exact Or.inr (h.1 f hm)

theorem perFile_roots (hs : SchemaOk s) (hf : FragOk legacy s fr) (hp : Sub p s) (hd : Distinct Attr.name p) {f : File} (hm : f ∈ fr.files) :
    ((perFile s p f).roots.map (fun t => t.1.name)).Nodup ∧ ∀ u, u ∈ (perFile s p f).roots ↔ u ∈ p.roots ∧ u.1.id ∈ f.ids := by
  have h1 := projectByIds_roots f.ids false (s := s) (fun t ht => in_or_out hf ht hm)
  have hsn := distinct_names hs.distinct
  have hfind : ∀ t ∈ s.roots, ∀ u, byName t.1.name p = some u → u.1 = t.1 ∧ (u.1.kind = .struct → Sub u.2 t.2) := by
    intro t ht u hu
    obtain ⟨hu1, hu2⟩ := byName_mem hu
    obtain ⟨sk, h2, h3⟩ := sub_root hp hu1
    rw [hu2, byName_of_mem hsn ht] at h2
    cases h2
    refine ⟨rfl, ?_⟩
    intro hk
    rw [if_pos hk] at h3
    exact h3.2
  have h2 : (perFile s p f).roots = (s.roots.filter (fun t => f.ids.contains t.1.id)).filterMap (fun t => byName t.1.name p) := by
    unfold perFile
    rw [interTop_roots, h1]
    intro t ht u hu hk _
    rw [h1] at ht
    have := hfind t (List.mem_filter.1 ht).1 u hu
    exact interKids_sub (this.2 hk)
  rw [h2]
  constructor
  · refine filterMap_names (name := fun t : Attr × Tr Attr => t.1.name) ?_ ?_
    · intro a b hb
      exact (byName_mem hb).2
    · exact List.Nodup.sublist (List.Sublist.map _ List.filter_sublist) hsn
  · intro u
    rw [List.mem_filterMap]
    constructor
    · rintro ⟨t, ht, hu⟩
      obtain ⟨ht, hc⟩ := List.mem_filter.1 ht
      refine ⟨(byName_mem hu).1, ?_⟩
      rw [(hfind t ht u hu).1]
      exact List.contains_iff_mem.1 hc
    · rintro ⟨hu, hc⟩
      obtain ⟨sk, hm, h2, _⟩ := sub_rootIds hp hu
      exact ⟨(u.1, sk), List.mem_filter.2 ⟨hm, List.contains_iff_mem.2 hc⟩, byName_of_mem (distinct_names hd) hu⟩

/-- A projected field is wholly in a file or wholly not. -/
theorem in_or_out_sub (hf : FragOk legacy s fr) (hp : Sub p s) {t : Attr × Tr Attr} (ht : t ∈ p.roots) {f : File} (hm : f ∈ fr.files) :
    (∀ i ∈ rootIds t, i ∈ f.ids) ∨ (∀ i ∈ rootIds t, i ∉ f.ids) := by
  obtain ⟨sk, h1, _, h3⟩ := sub_rootIds hp ht
  rcases in_or_out hf h1 hm with h | h
  · exact Or.inl (fun i hi => h i (h3 i hi))
  · exact Or.inr (fun i hi => h i (h3 i hi))

theorem mem_rootIds_self (t : Attr × Tr Attr) : t.1.id ∈ rootIds t := by simp [rootIds]

theorem missing_roots (hs : SchemaOk s) (hf : FragOk legacy s fr) (hp : Sub p s) (hd : Distinct Attr.name p) :
    (missingFields s p fr).roots = p.roots.filter (fun t => !(fr.files.flatMap File.ids).contains t.1.id) := by
  have hpres : ∀ t ∈ p.roots, ∀ i ∈ rootIds t, (i ∈ fr.files.flatMap (fun f => ids (perFile s p f)) ↔ t.1.id ∈ fr.files.flatMap File.ids) := by
    intro t ht i hi
    rw [List.mem_flatMap, List.mem_flatMap]
    constructor
    · rintro ⟨f, hm, hc⟩
      obtain ⟨u, hu, hiu⟩ := mem_ids_root.1 hc
      obtain ⟨hu1, hu2⟩ := ((perFile_roots hs hf hp hd hm).2 u).1 hu
      refine ⟨f, hm, ?_⟩
      rcases in_or_out_sub hf hp hu1 hm with h | h
      · have := h i hiu
        rcases in_or_out_sub hf hp ht hm with h' | h'
        · exact h' _ (mem_rootIds_self t)
        · exact absurd this (h' i hi)
      · exact absurd hu2 (h _ (mem_rootIds_self u))
    · rintro ⟨f, hm, hc⟩
      exact ⟨f, hm, mem_ids_root.2 ⟨t, ((perFile_roots hs hf hp hd hm).2 t).2 ⟨ht, hc⟩, hi⟩⟩
  have hnn : ∀ t ∈ p.roots, ∀ i ∈ rootIds t, 0 ≤ i := by
    intro t ht i hi
    exact hs.nonneg i (sub_ids hp (mem_ids_root.2 ⟨t, ht, hi⟩))
  unfold missingFields
  simp only
  rw [projectByIds_roots]
  · apply List.filter_congr
    intro t ht
    rw [Bool.eq_iff_iff]
    simp only [List.contains_iff_mem, List.mem_filter, Bool.and_eq_true, Bool.not_eq_true', decide_eq_true_eq]
    rw [Bool.eq_false_iff, Bool.eq_false_iff, ne_eq, ne_eq, List.contains_iff_mem, List.contains_iff_mem, hpres t ht _ (mem_rootIds_self t)]
    constructor
    · exact fun h => h.2.1
    · exact fun h => ⟨mem_ids_root.2 ⟨t, ht, mem_rootIds_self t⟩, h, hnn t ht _ (mem_rootIds_self t)⟩
  · intro t ht
    by_cases h : t.1.id ∈ fr.files.flatMap File.ids
    · right
      intro i hi c
      simp only [List.mem_filter, Bool.and_eq_true, Bool.not_eq_true'] at c
      have := (hpres t ht i hi).2 h
      rw [← List.contains_iff_mem, c.2.1] at this
      cases this
    · left
      intro i hi
      simp only [List.mem_filter, Bool.and_eq_true, Bool.not_eq_true', decide_eq_true_eq]
      refine ⟨mem_ids_root.2 ⟨t, ht, hi⟩, ?_, hnn t ht i hi⟩
      rw [Bool.eq_false_iff, ne_eq, List.contains_iff_mem, hpres t ht i hi]
      exact h

end Frag
end Verif.Evolve
