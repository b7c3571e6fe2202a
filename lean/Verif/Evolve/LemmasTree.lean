import Verif.Evolve.Spec
namespace Verif.Evolve
namespace Tr
variable {α β γ : Type}

theorem roots_inj : ∀ {s t : Tr α}, s.roots = t.roots → s = t
  | nil, nil, _ => rfl
  | nil, cons _ _ _, h => by simp [roots] at h
  | cons _ _ _, nil, h => by simp [roots] at h
  | cons a k r, cons b l q, h => by
    simp only [roots, List.cons.injEq, Prod.mk.injEq] at h
    rw [h.1.1, h.1.2, roots_inj h.2]

def ofRoots : List (α × Tr α) → Tr α
  | [] => nil
  | (a, k) :: r => cons a k (ofRoots r)

theorem roots_ofRoots (l : List (α × Tr α)) : (ofRoots l).roots = l := by
  induction l with
  | nil => rfl
  | cons x l ih => obtain ⟨a, k⟩ := x; simp [ofRoots, roots, ih]

theorem roots_eq_nil {t : Tr α} : t.roots = [] ↔ t = nil := by cases t <;> simp [roots]

theorem find?_roots (p : α → Bool) (t : Tr α) : t.find? p = t.roots.find? (fun x => p x.1) := by
  induction t with
  | nil => rfl
  | cons a k r _ ih =>
    simp only [find?, roots, List.find?_cons]
    cases h : p a <;> simp [ih]

theorem roots_map (f : α → β) (t : Tr α) : (t.map f).roots = t.roots.map (fun x => (f x.1, x.2.map f)) := by
  induction t with
  | nil => rfl
  | cons a k r _ ih => simp [map, roots, ih]

theorem roots_append (s t : Tr α) : (s.append t).roots = s.roots ++ t.roots := by
  induction s with
  | nil => rfl
  | cons a k r _ ih => simp [append, roots, ih]

theorem roots_filterTop (p : α → Tr α → Bool) (t : Tr α) : (t.filterTop p).roots = t.roots.filter (fun x => p x.1 x.2) := by
  induction t with
  | nil => rfl
  | cons a k r _ ih =>
    simp only [filterTop, roots, List.filter_cons]
    split <;> simp [roots, ih]

theorem map_map (f : α → β) (g : β → γ) (t : Tr α) : (t.map f).map g = t.map (fun a => g (f a)) := by
  induction t with
  | nil => rfl
  | cons a k r ihk ihr => simp [map, ihk, ihr]

theorem flat_map (f : α → β) (t : Tr α) : (t.map f).flat = t.flat.map f := by
  induction t with
  | nil => rfl
  | cons a k r ihk ihr => simp [map, flat, ihk, ihr]

theorem map_congr {f g : α → β} : ∀ {t : Tr α}, (∀ a ∈ t.flat, f a = g a) → t.map f = t.map g
  | nil, _ => rfl
  | cons a k r, h => by
    simp only [map, flat, List.mem_cons, List.mem_append] at h ⊢
    rw [h a (Or.inl rfl), map_congr (fun b hb => h b (Or.inr (Or.inl hb))), map_congr (fun b hb => h b (Or.inr (Or.inr hb)))]

theorem map_id' {f : α → α} {t : Tr α} (h : ∀ a ∈ t.flat, f a = a) : t.map f = t := by
  induction t with
  | nil => rfl
  | cons a k r ihk ihr =>
    simp only [flat, List.mem_cons, List.mem_append] at h
    simp only [map]
    rw [h a (Or.inl rfl), ihk (fun b hb => h b (Or.inr (Or.inl hb))), ihr (fun b hb => h b (Or.inr (Or.inr hb)))]

theorem map_append (f : α → β) (s t : Tr α) : (s.append t).map f = (s.map f).append (t.map f) := by
  induction s with
  | nil => rfl
  | cons a k r _ ih => simp [append, map, ih]

theorem flat_append (s t : Tr α) : (s.append t).flat = s.flat ++ t.flat := by
  induction s with
  | nil => rfl
  | cons a k r _ ih => simp [append, flat, ih]

theorem append_nil (s : Tr α) : s.append nil = s := by
  induction s with
  | nil => rfl
  | cons a k r _ ih => simp [append, ih]

theorem append_assoc (s t u : Tr α) : (s.append t).append u = s.append (t.append u) := by
  induction s with
  | nil => rfl
  | cons a k r _ ih => simp [append, ih]

theorem map_eq_nil {f : α → β} {t : Tr α} : t.map f = nil ↔ t = nil := by cases t <;> simp [map]

theorem mem_flat {a : α} {t : Tr α} : a ∈ t.flat ↔ ∃ x ∈ t.roots, a = x.1 ∨ a ∈ x.2.flat := by
  induction t with
  | nil => simp [flat, roots]
  | cons b k r _ ih =>
    simp only [flat, roots, List.mem_cons, List.mem_append, ih]
    constructor
    · rintro (e | h | ⟨x, hx, h⟩)
      · exact ⟨(b, k), Or.inl rfl, Or.inl e⟩
      · exact ⟨(b, k), Or.inl rfl, Or.inr h⟩
      · exact ⟨x, Or.inr hx, h⟩
    · rintro ⟨x, rfl | hx, h⟩
      · rcases h with h | h
        · exact Or.inl h
        · exact Or.inr (Or.inl h)
      · exact Or.inr (Or.inr ⟨x, hx, h⟩)

theorem root_mem_flat {x : α × Tr α} {t : Tr α} (h : x ∈ t.roots) : x.1 ∈ t.flat := mem_flat.2 ⟨x, h, Or.inl rfl⟩

theorem kid_mem_flat {x : α × Tr α} {t : Tr α} {a : α} (h : x ∈ t.roots) (ha : a ∈ x.2.flat) : a ∈ t.flat := mem_flat.2 ⟨x, h, Or.inr ha⟩

theorem mem_find? {p : α → Bool} {t : Tr α} {x : α × Tr α} (h : t.find? p = some x) : x ∈ t.roots ∧ p x.1 = true := by
  rw [find?_roots] at h
  exact ⟨List.mem_of_find?_eq_some h, List.find?_some (p := fun x : α × Tr α => p x.1) h⟩

/-- All of them one after another. -/
def cat (l : List (Tr α)) : Tr α := l.foldr append nil

theorem roots_cat (l : List (Tr α)) : (cat l).roots = l.flatMap roots := by
  induction l with
  | nil => rfl
  | cons t l ih =>
    simp only [cat, List.foldr_cons, List.flatMap_cons, roots_append] at ih ⊢
    rw [ih]

end Tr

/-! ### Names -/

theorem byName_roots (x : Nat) (s : Tr Attr) : byName x s = s.roots.find? (fun t => t.1.name == x) := Tr.find?_roots _ _

theorem colByName_roots (x : Nat) (s : Tr Col) : colByName x s = s.roots.find? (fun t => t.1.name == x) := Tr.find?_roots _ _

theorem byName_mem {x : Nat} {s : Tr Attr} {t : Attr × Tr Attr} (h : byName x s = some t) : t ∈ s.roots ∧ t.1.name = x := by
  obtain ⟨h1, h2⟩ := Tr.mem_find? h
  exact ⟨h1, by simpa using h2⟩

theorem colByName_mem {x : Nat} {s : Tr Col} {t : Col × Tr Col} (h : colByName x s = some t) : t ∈ s.roots ∧ t.1.name = x := by
  obtain ⟨h1, h2⟩ := Tr.mem_find? h
  exact ⟨h1, by simpa using h2⟩

theorem find_name {α : Type} (name : α → Nat) : ∀ {l : List α}, (l.map name).Nodup → ∀ {t : α}, t ∈ l → l.find? (fun u => name u == name t) = some t
  | [], _, _, h => by cases h
  | u :: l, hn, t, h => by
    rw [List.map_cons, List.nodup_cons] at hn
    rw [List.find?_cons]
    rcases List.mem_cons.1 h with rfl | h
    · simp
    · have : name u ≠ name t := fun e => hn.1 (e ▸ List.mem_map_of_mem h)
      simp only [beq_eq_false_iff_ne.2 this]
      exact find_name name hn.2 h

theorem distinct_names {α : Type} {name : α → Nat} : ∀ {s : Tr α}, Distinct name s → (s.roots.map (fun t => name t.1)).Nodup
  | .nil, _ => List.nodup_nil
  | .cons a k r, h => by
    simp only [Tr.roots, List.map_cons, List.nodup_cons, List.mem_map, not_exists, not_and]
    exact ⟨fun t ht => h.1 t ht, distinct_names h.2.2⟩

theorem distinct_kids {α : Type} {name : α → Nat} : ∀ {s : Tr α}, Distinct name s → ∀ {t}, t ∈ s.roots → Distinct name t.2
  | .nil, _, _, ht => by cases ht
  | .cons a k r, h, t, ht => by
    simp only [Tr.roots, List.mem_cons] at ht
    rcases ht with rfl | ht
    · exact h.2.1
    · exact distinct_kids h.2.2 ht

theorem distinct_of {α : Type} {name : α → Nat} : ∀ {s : Tr α}, (s.roots.map (fun t => name t.1)).Nodup → (∀ t ∈ s.roots, Distinct name t.2) → Distinct name s
  | .nil, _, _ => trivial
  | .cons a k r, h, hk => by
    simp only [Tr.roots, List.map_cons, List.nodup_cons, List.mem_map, not_exists, not_and] at h
    exact ⟨fun t ht => h.1 t ht, hk (a, k) (by simp [Tr.roots]), distinct_of h.2 (fun t ht => hk t (by simp [Tr.roots, ht]))⟩

theorem distinct_map {α β : Type} {f : α → β} {name : β → Nat} : ∀ {s : Tr α}, Distinct name (s.map f) ↔ Distinct (fun a => name (f a)) s
  | .nil => Iff.rfl
  | .cons a k r => by
    simp only [Tr.map, Distinct, Tr.roots_map, List.mem_map]
    rw [distinct_map, distinct_map]
    constructor
    · rintro ⟨h1, h2⟩
      exact ⟨fun t ht => h1 _ ⟨t, ht, rfl⟩, h2⟩
    · rintro ⟨h1, h2⟩
      refine ⟨?_, h2⟩
      rintro _ ⟨t, ht, rfl⟩
      exact h1 t ht

theorem byName_of_mem {s : Tr Attr} (h : (s.roots.map (fun t => t.1.name)).Nodup) {t : Attr × Tr Attr} (ht : t ∈ s.roots) : byName t.1.name s = some t := by
  rw [byName_roots]
  exact find_name (fun u : Attr × Tr Attr => u.1.name) h ht

theorem colByName_map {f : Attr → Col} (hf : ∀ a, (f a).name = a.name) (x : Nat) (s : Tr Attr) :
    colByName x (s.map f) = (byName x s).map (fun t => (f t.1, t.2.map f)) := by
  rw [colByName_roots, byName_roots, Tr.roots_map, List.find?_map]
  congr 1
  congr 1
  funext t
  simp [hf]

theorem col_name (a : Attr) (v : List Cell) : (a.col v).name = a.name := rfl

/-! ### Ids -/

theorem mem_ids {i : Int} {s : Tr Attr} : i ∈ ids s ↔ ∃ t ∈ s.roots, i = t.1.id ∨ i ∈ ids t.2 := by
  unfold ids
  simp only [List.mem_map]
  constructor
  · rintro ⟨a, ha, rfl⟩
    obtain ⟨t, ht, rfl | h⟩ := Tr.mem_flat.1 ha
    · exact ⟨t, ht, Or.inl rfl⟩
    · exact ⟨t, ht, Or.inr ⟨a, h, rfl⟩⟩
  · rintro ⟨t, ht, rfl | ⟨a, h, rfl⟩⟩
    · exact ⟨t.1, Tr.root_mem_flat ht, rfl⟩
    · exact ⟨a, Tr.kid_mem_flat ht h, rfl⟩

theorem ids_cons (a : Attr) (k r : Tr Attr) : ids (.cons a k r) = a.id :: (ids k ++ ids r) := by simp [ids, Tr.flat]

theorem ids_append (s t : Tr Attr) : ids (s.append t) = ids s ++ ids t := by simp [ids, Tr.flat_append]

/-- All ids of a top level field. -/
def rootIds (t : Attr × Tr Attr) : List Int := t.1.id :: ids t.2

theorem mem_ids_root {i : Int} {s : Tr Attr} : i ∈ ids s ↔ ∃ t ∈ s.roots, i ∈ rootIds t := by
  rw [mem_ids]
  simp [rootIds]

/-- Different top level fields have different ids. -/
theorem root_of_id : ∀ {s : Tr Attr}, (ids s).Nodup → ∀ {t u : Attr × Tr Attr}, t ∈ s.roots → u ∈ s.roots → ∀ {i : Int}, i ∈ rootIds t → i ∈ rootIds u → t = u
  | .nil, _, _, _, ht, _, _, _, _ => by cases ht
  | .cons a k r, hn, t, u, ht, hu, i, hit, hiu => by
    rw [ids_cons, ← List.cons_append, List.nodup_append] at hn
    simp only [Tr.roots, List.mem_cons] at ht hu
    rcases ht with rfl | ht <;> rcases hu with rfl | hu
    · rfl
    · exact absurd rfl (hn.2.2 i hit i (mem_ids_root.2 ⟨u, hu, hiu⟩))
    · exact absurd rfl (hn.2.2 i hiu i (mem_ids_root.2 ⟨t, ht, hit⟩))
    · exact root_of_id hn.2.1 ht hu hit hiu

theorem shape_kids : ∀ {s : Tr Attr}, ShapeOk s → ∀ {t}, t ∈ s.roots → ShapeOk t.2
  | .nil, _, _, ht => by cases ht
  | .cons a k r, h, t, ht => by
    simp only [Tr.roots, List.mem_cons] at ht
    rcases ht with rfl | ht
    · exact h.2.1
    · exact shape_kids h.2.2 ht

theorem shape_struct : ∀ {s : Tr Attr}, ShapeOk s → ∀ {t}, t ∈ s.roots → t.1.kind = .struct → t.2 ≠ .nil
  | .nil, _, _, ht => by cases ht
  | .cons a k r, h, t, ht => by
    simp only [Tr.roots, List.mem_cons] at ht
    rcases ht with rfl | ht
    · intro e
      have := h.1
      simp only at e
      rw [e] at this
      exact this
    · exact shape_struct h.2.2 ht

end Verif.Evolve
