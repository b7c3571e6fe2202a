import Verif.Evolve.LemmasAlter
namespace Verif.Evolve

theorem node_spec {cs : Casts} {M : Int} {st : AltState} {mine : List Alt} {q : List Nat} {a b : Attr} (h : NodeOk M st mine q a b) {v w : List Cell}
    (hno : b.id = a.id → a.kind ≠ .struct → v = w)
    (hc : ∀ t0 t, b.id ≠ a.id → a.kind = .leaf t0 → b.kind = .leaf t → v.mapM (cs.cast t0 t) = some w) (hM : a.id ≤ M) :
    specAlterCol cs mine (a.col v) = some (b.col w) := by
  unfold specAlterCol
  simp only
  rcases h.cast with ⟨h1, h2, h3⟩ | ⟨t0, t, h1, h2, h3, h4, _⟩
  · rw [h1]
    simp only [Attr.col, h.name, h.nullable, h3]
    by_cases hk : a.kind = .struct
    · simp [hk]
    · simp only [hk, if_false]
      rw [hno h2 hk]
  · rw [h1]
    have hne : b.id ≠ a.id := by omega
    have := hc t0 t hne h2 h3
    simp [Attr.col, h2, h3, this, h.name, h.nullable]

theorem strict_map {F : Attr → Attr} : ∀ {s : Tr Attr}, (∀ a ∈ s.flat, ((F a).kind = .struct ↔ a.kind = .struct)) → strict (s.map F) = (strict s).map F
  | .nil, _ => rfl
  | .cons a k r, h => by
    simp only [Tr.flat, List.mem_cons, List.mem_append] at h
    simp only [Tr.map, strict, List.map_cons, List.map_append]
    rw [strict_map (s := r) (fun b hb => h b (Or.inr (Or.inr hb)))]
    congr 2
    by_cases hk : a.kind = .struct
    · rw [if_pos hk, if_pos ((h a (Or.inl rfl)).2 hk), strict_map (fun b hb => h b (Or.inr (Or.inl hb)))]
    · rw [if_neg hk, if_neg (fun c => hk ((h a (Or.inl rfl)).1 c))]
      rfl

/-- A primitive type stays primitive, the rest stays the same. -/
def SameSort (a b : Kind) : Prop := b = a ∨ ∃ t0 t, a = .leaf t0 ∧ b = .leaf t

theorem shape_map_on {F : Attr → Attr} : ∀ {s : Tr Attr}, (∀ a ∈ s.flat, SameSort a.kind (F a).kind) → ShapeOk s → ShapeOk (s.map F)
  | .nil, _, _ => trivial
  | .cons a k r, h, hs => by
    simp only [Tr.flat, List.mem_cons, List.mem_append] at h
    refine ⟨?_, shape_map_on (fun b hb => h b (Or.inr (Or.inl hb))) hs.2.1, shape_map_on (fun b hb => h b (Or.inr (Or.inr hb))) hs.2.2⟩
    have h1 := hs.1
    rcases h a (Or.inl rfl) with e | ⟨t0, t, e1, e2⟩
    · rw [e]
      cases hk : a.kind with
      | leaf t => rw [hk] at h1; simp only at h1 ⊢; rw [h1]; rfl
      | struct => rw [hk] at h1; simp only at h1 ⊢; intro c; exact h1 (Tr.map_eq_nil.1 c)
      | list =>
        rw [hk] at h1
        simp only at h1 ⊢
        obtain ⟨b, l, e⟩ := h1
        exact ⟨F b, l.map F, by rw [e]; rfl⟩
    · rw [e1] at h1
      rw [e2]
      simp only at h1 ⊢
      rw [h1]
      rfl

theorem map_ids {F : Attr → Attr} {s : Tr Attr} (h : ∀ a ∈ s.flat, (F a).id = a.id) : ids (s.map F) = ids s := by
  simp only [ids, Tr.flat_map, List.map_map]
  apply List.map_congr_left
  intro a ha
  exact h a ha

/-- Renaming and relaxing nullability leave the data as it is. -/
theorem whole_map {lg : Bool} {s : Tr Attr} {fr : Frag} {F : Attr → Attr} (h : FragOk lg s fr) {t : Attr × Tr Attr} (ht : t ∈ s.roots)
    (hF : ∀ a, a = t.1 ∨ a ∈ t.2.flat → (F a).id = a.id ∧ (F a).kind = a.kind ∧ (a.nullable = true → (F a).nullable = true)) :
    rootIds (F t.1, t.2.map F) = rootIds t ∧ (Stored (F t.1, t.2.map F) fr ∨
    ((∀ f ∈ fr.files, ∀ i ∈ rootIds (F t.1, t.2.map F), i ∉ f.ids) ∧
      (∀ a ∈ F t.1 :: (if (F t.1).kind = .struct then strict (t.2.map F) else []), a.nullable = true) ∧ lg = false)) := by
  have hids : rootIds (F t.1, t.2.map F) = rootIds t := by
    simp only [rootIds]
    rw [(hF t.1 (Or.inl rfl)).1, map_ids (fun a ha => (hF a (Or.inr ha)).1)]
  refine ⟨hids, ?_⟩
  rcases h.whole t ht with ⟨f, hf, h1⟩ | ⟨h1, h2, h3⟩
  · left
    refine ⟨f, hf, ?_⟩
    unfold inFile
    rw [hids]
    exact h1
  · right
    rw [hids]
    refine ⟨h1, ?_, h3⟩
    intro a ha
    rcases List.mem_cons.1 ha with rfl | ha
    · exact (hF t.1 (Or.inl rfl)).2.2 (h2 _ (by simp))
    · rw [(hF t.1 (Or.inl rfl)).2.1] at ha
      split at ha
      · rename_i hk
        rw [strict_map (fun b hb => by rw [(hF b (Or.inr hb)).2.1])] at ha
        obtain ⟨b, hb, rfl⟩ := List.mem_map.1 ha
        refine (hF b (Or.inr (strict_flat hb))).2.2 (h2 b ?_)
        rw [if_pos hk]
        simp [hb]
      · cases ha

theorem nullOk_mono {a b : Bool} (h : a = true → b = true) {v : List Cell} (hv : nullOk a v = true) : nullOk b v = true := by
  unfold nullOk at *
  cases a with
  | true => rw [h rfl]; rfl
  | false =>
    simp only [Bool.false_or] at hv
    rw [hv]
    simp

theorem fragOk_rename {lg : Bool} {s : Tr Attr} {fr : Frag} {F : Attr → Attr} (h : FragOk lg s fr)
    (hF : ∀ a ∈ s.flat, (F a).id = a.id ∧ (F a).kind = a.kind ∧ (a.nullable = true → (F a).nullable = true)) : FragOk lg (s.map F) fr := by
  refine ⟨h.nodup, h.rows, h.format, ?_, ?_, ?_, h.del⟩
  · intro t ht
    rw [Tr.roots_map] at ht
    obtain ⟨u, hu, rfl⟩ := List.mem_map.1 ht
    refine (whole_map h hu ?_).2
    rintro a (rfl | ha)
    · exact hF _ (Tr.root_mem_flat hu)
    · exact hF a (Tr.kid_mem_flat hu ha)
  · intro a ha hk v hv
    rw [Tr.flat_map] at ha
    obtain ⟨b, hb, rfl⟩ := List.mem_map.1 ha
    obtain ⟨h1, h2, h3⟩ := hF b hb
    rw [h1] at hv
    rw [h2] at hk
    exact h.len b hb hk v hv
  · intro a ha hk v hv
    rw [strict_map (fun b hb => by rw [(hF b hb).2.1])] at ha
    obtain ⟨b, hb, rfl⟩ := List.mem_map.1 ha
    obtain ⟨h1, h2, h3⟩ := hF b (strict_flat hb)
    rw [h1] at hv
    rw [h2] at hk
    exact nullOk_mono h3 (h.nonnull b hb hk v hv)

/-! ### Casting cells -/

theorem mapM_total {α β : Type} {f : α → Option β} {dflt : β} : ∀ {l : List α} {r : List β}, l.mapM f = some r → r = l.map (fun x => (f x).getD dflt) ∧ ∀ x ∈ l, (f x).isSome
  | [], r, h => by
    simp only [List.mapM_nil, Option.pure_def, Option.some.injEq] at h
    subst h
    exact ⟨rfl, by simp⟩
  | x :: l, r, h => by
    rw [List.mapM_cons] at h
    cases e : f x with
    | none => rw [e] at h; cases h
    | some y =>
      rw [e] at h
      simp only [Option.bind_eq_bind, Option.bind_some] at h
      cases e2 : l.mapM f with
      | none => rw [e2] at h; cases h
      | some r' =>
        rw [e2] at h
        simp only [Option.bind_some, Option.pure_def, Option.some.injEq] at h
        subst h
        obtain ⟨h1, h2⟩ := mapM_total (dflt := dflt) e2
        refine ⟨by simp [e, h1], ?_⟩
        intro z hz
        rcases List.mem_cons.1 hz with rfl | hz
        · rw [e]; rfl
        · exact h2 z hz

theorem mapM_of_total {α β : Type} {f : α → Option β} {dflt : β} {l : List α} (h : ∀ x ∈ l, (f x).isSome) : l.mapM f = some (l.map (fun x => (f x).getD dflt)) := by
  apply mapM_some'
  intro x hx
  have := h x hx
  cases e : f x with
  | none => rw [e] at this; cases this
  | some y => rfl

def Kind.ty : Kind → Nat
  | .leaf t => t
  | _ => 0

/-- The cells of a field after its cast. -/
def castV (cs : Casts) (F : Attr → Attr) (a : Attr) (v : List Cell) : List Cell := v.map (fun c => (cs.cast a.kind.ty (F a).kind.ty c).getD none)

theorem castCols_find {cs : Casts} : ∀ {casts : List (List Nat × Attr × Attr)} {B nb : Tr Col}, castCols cs casts B = some nb → ∀ {x : Nat}, (∃ c ∈ casts, c.2.2.name = x) →
    ∃ c ∈ casts, c.2.2.name = x ∧ ∃ col kids t0 t v, colByName c.2.1.name B = some (col, kids) ∧ c.2.1.kind = .leaf t0 ∧ c.2.2.kind = .leaf t ∧
      col.vals.mapM (cs.cast t0 t) = some v ∧ colByName x nb = some (c.2.2.col v, .nil)
  | [], _, _, _, _, h => by obtain ⟨c, hc, _⟩ := h; cases hc
  | (q, old, new) :: rest, B, nb, h, x, hx => by
    unfold castCols at h
    cases e : colByName old.name B with
    | none => rw [e] at h; cases h
    | some u =>
      obtain ⟨col, kids⟩ := u
      rw [e] at h
      simp only at h
      cases k1 : old.kind with
      | struct => rw [k1] at h; cases h
      | list => rw [k1] at h; cases h
      | leaf t0 =>
      cases k2 : new.kind with
      | struct => rw [k1, k2] at h; cases h
      | list => rw [k1, k2] at h; cases h
      | leaf t =>
      rw [k1, k2] at h
      simp only at h
      cases e2 : col.vals.mapM (cs.cast t0 t) with
      | none => rw [e2] at h; cases h
      | some v =>
        cases e3 : castCols cs rest B with
        | none => rw [e2, e3] at h; cases h
        | some r =>
          rw [e2, e3] at h
          simp only [Option.some.injEq] at h
          subst h
          have hcons : ∀ y, colByName y (.cons (new.col v) .nil r) = if new.name = y then some (new.col v, .nil) else colByName y r := by
            intro y
            show (if (new.col v).name == y then some (new.col v, .nil) else colByName y r) = _
            by_cases hy : new.name = y
            · simp [hy, Attr.col]
            · simp [hy, Attr.col]
          by_cases hn : new.name = x
          · refine ⟨(q, old, new), by simp, hn, col, kids, t0, t, v, e, k1, k2, e2, ?_⟩
            rw [hcons, if_pos hn]
          · obtain ⟨c, hc, hcx⟩ := hx
            rcases List.mem_cons.1 hc with rfl | hc
            · exact absurd hcx hn
            · obtain ⟨c', g1, g2, g3, g4, g5, g6, g7, g8, g9, g10, g11, g12⟩ := castCols_find e3 ⟨c, hc, hcx⟩
              exact ⟨c', by simp [g1], g2, g3, g4, g5, g6, g7, g8, g9, g10, g11, by rw [hcons, if_neg hn]; exact g12⟩

end Verif.Evolve
