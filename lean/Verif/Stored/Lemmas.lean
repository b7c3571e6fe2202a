import Verif.Stored.Model
/-! Helper lemmas for the stored form. -/
namespace Verif.Stored

theorem mapE_ok_iff {α β γ : Type} {f : β → Except Err γ} {g : α → β} {h : α → γ} :
    ∀ {l : List α}, (∀ x ∈ l, f (g x) = .ok (h x)) → mapE f (l.map g) = .ok (l.map h)
  | [], _ => rfl
  | x :: xs, H => by
    simp only [List.map_cons, mapE, H x (List.mem_cons_self ..)]
    rw [mapE_ok_iff (fun y hy => H y (List.mem_cons_of_mem _ hy))]

theorem mapE_id {α β : Type} {f : β → Except Err α} {g : α → β} {l : List α}
    (h : ∀ x ∈ l, f (g x) = .ok x) : mapE f (l.map g) = .ok l := by
  have := mapE_ok_iff (h := id) (fun x hx => (h x hx))
  simpa using this

/-! ### Fields -/

theorem ofI64_toI64 {n : Nat} (h : n < 18446744073709551616) : ofI64 (toI64 n) = n := by
  unfold ofI64 toI64
  split <;> omega

theorem insert_get {m : Md} {k v : String} (h : m.get k = some v) : Md.insert k v m = m := by
  induction m with
  | nil => simp [Md.get] at h
  | cons e r ih =>
    obtain ⟨k', v'⟩ := e
    simp only [Md.get, List.find?] at h
    unfold Md.insert
    by_cases hk : k' = k
    · subst hk
      simp at h
      simp [h]
    · have : (k' == k) = false := by simpa using hk
      simp only [this] at h
      rw [if_neg hk, ih h]

theorem encOf_encNum (e : Option Enc) : encOf (encNum e) = e := by
  cases e with
  | none => rfl
  | some e => cases e <;> rfl

theorem classOf_classStr (c : Class) : classOf (classStr c) = .ok c := by
  cases c
  · rfl
  · unfold classOf classStr
    rw [if_neg (by decide), if_pos (by decide)]

/-- What the field is read back as. -/
def normAttr (a : Attr) : Attr :=
  { a with dict := a.dict.map (fun d => ⟨ofI64 (toI64 d.offset), ofI64 (toI64 d.length), none⟩) }

theorem decField_encField (a : Attr) : decField (encField a) = .ok (normAttr a) := by
  unfold decField encField
  simp only [classOf_classStr, encOf_encNum, Option.map_map]
  have hmd : (if (a.md.get extKey).getD "" = "" then a.md
      else Md.insert extKey ((a.md.get extKey).getD "") a.md) = a.md := by
    split
    · rfl
    · rename_i hne
      cases hg : a.md.get extKey with
      | none => simp [hg] at hne
      | some v => simpa using insert_get hg
  rw [hmd]
  rfl

/-! ### Forests -/

def Forest.ids : Forest → List Int
  | .nil => []
  | .cons a k r => a.id :: (k.ids ++ r.ids)

def Forest.append : Forest → Forest → Forest
  | .nil, g => g
  | .cons a k r, g => .cons a k (r.append g)

/-- `g` appended to the children of the first field with id `p`. -/
def Forest.graft (f : Forest) (p : Int) (g : Forest) : Forest :=
  match f with
  | .nil => .nil
  | .cons b k r =>
    if b.id = p then .cons b (k.append g) r
    else if p ∈ k.ids then .cons b (k.graft p g) r
    else .cons b k (r.graft p g)

theorem push_eq (f : Forest) (a : Attr) : f.push a = f.append (.cons a .nil .nil) := by
  induction f with
  | nil => rfl
  | cons b k r _ ih => simp [Forest.push, Forest.append, ih]

theorem append_nil (f : Forest) : f.append .nil = f := by
  induction f with
  | nil => rfl
  | cons b k r _ ih => simp [Forest.append, ih]

theorem append_assoc (f g h : Forest) : (f.append g).append h = f.append (g.append h) := by
  induction f with
  | nil => rfl
  | cons b k r _ ih => simp [Forest.append, ih]

theorem ids_append (f g : Forest) : (f.append g).ids = f.ids ++ g.ids := by
  induction f with
  | nil => rfl
  | cons b k r _ ih => simp [Forest.append, Forest.ids, ih]

theorem pushAt_none {p : Int} {a : Attr} {f : Forest} (h : p ∉ f.ids) : f.pushAt p a = none := by
  induction f with
  | nil => rfl
  | cons b k r ihk ihr =>
    simp only [Forest.ids, List.mem_cons, List.mem_append, not_or] at h
    have hb : ¬ b.id = p := fun e => h.1 e.symm
    simp [Forest.pushAt, hb, ihk h.2.1, ihr h.2.2]

theorem pushAt_eq {p : Int} {a : Attr} {f : Forest} (h : p ∈ f.ids) :
    f.pushAt p a = some (f.graft p (.cons a .nil .nil)) := by
  induction f with
  | nil => simp [Forest.ids] at h
  | cons b k r ihk ihr =>
    unfold Forest.pushAt Forest.graft
    by_cases hb : b.id = p
    · simp [hb, push_eq]
    · simp only [if_neg hb]
      by_cases hk : p ∈ k.ids
      · simp [ihk hk, hk]
      · simp only [Forest.ids, List.mem_cons, List.mem_append] at h
        have hr : p ∈ r.ids := by
          rcases h with h | h | h
          · exact absurd h.symm hb
          · exact absurd h hk
          · exact h
        simp [pushAt_none hk, hk, ihr hr]

theorem mem_ids_graft {p q : Int} {g f : Forest} (h : p ∈ f.ids) :
    q ∈ (f.graft p g).ids ↔ q ∈ f.ids ∨ q ∈ g.ids := by
  induction f with
  | nil => simp [Forest.ids] at h
  | cons b k r ihk ihr =>
    unfold Forest.graft
    by_cases hb : b.id = p
    · rw [if_pos hb]
      simp only [Forest.ids, ids_append, List.mem_cons, List.mem_append]
      grind
    · rw [if_neg hb]
      by_cases hk : p ∈ k.ids
      · rw [if_pos hk]
        simp only [Forest.ids, List.mem_cons, List.mem_append, ihk hk]
        grind
      · rw [if_neg hk]
        have hr : p ∈ r.ids := by
          simp only [Forest.ids, List.mem_cons, List.mem_append] at h
          rcases h with h | h | h
          · exact absurd h.symm hb
          · exact absurd h hk
          · exact h
        simp only [Forest.ids, List.mem_cons, List.mem_append, ihr hr]
        grind

theorem graft_graft {p : Int} {g h : Forest} {f : Forest} (hp : p ∈ f.ids) (hg : p ∉ g.ids) :
    (f.graft p g).graft p h = f.graft p (g.append h) := by
  induction f with
  | nil => rfl
  | cons b k r ihk ihr =>
    unfold Forest.graft
    by_cases hb : b.id = p
    · simp [hb, Forest.graft, append_assoc]
    · simp only [if_neg hb]
      by_cases hk : p ∈ k.ids
      · have : p ∈ (k.graft p g).ids := (mem_ids_graft hk).2 (.inl hk)
        simp [hk, Forest.graft, hb, this, ihk hk]
      · have hr : p ∈ r.ids := by
          simp only [Forest.ids, List.mem_cons, List.mem_append] at hp
          rcases hp with h | h | h
          · exact absurd h.symm hb
          · exact absurd h hk
          · exact h
        simp [hk, Forest.graft, hb, ihr hr]

theorem graft_not_mem {p : Int} {g f : Forest} (h : p ∉ f.ids) : f.graft p g = f := by
  induction f with
  | nil => rfl
  | cons b k r ihk ihr =>
    simp only [Forest.ids, List.mem_cons, List.mem_append, not_or] at h
    have hb : ¬ b.id = p := fun e => h.1 e.symm
    simp [Forest.graft, hb, h.2.1, ihr h.2.2]

theorem graft_append {p : Int} {g : Forest} {f h : Forest} (hp : p ∉ f.ids) :
    (f.append h).graft p g = f.append (h.graft p g) := by
  induction f with
  | nil => rfl
  | cons b k r ihk ihr =>
    simp only [Forest.ids, List.mem_cons, List.mem_append, not_or] at hp
    have hb : ¬ b.id = p := fun e => hp.1 e.symm
    simp [Forest.append, Forest.graft, hb, hp.2.1, ihr hp.2.2]

/-- Grafting under a field that was itself just grafted. -/
theorem graft_new {p : Int} {a : Attr} {c f : Forest} (hp : p ∈ f.ids) (ha : a.id ∉ f.ids) :
    (f.graft p (.cons a .nil .nil)).graft a.id c = f.graft p (.cons a c .nil) := by
  induction f with
  | nil => simp [Forest.ids] at hp
  | cons b k r ihk ihr =>
    simp only [Forest.ids, List.mem_cons, List.mem_append, not_or] at ha
    have hba : ¬ b.id = a.id := fun e => ha.1 e.symm
    by_cases hb : b.id = p
    · have hin : a.id ∈ (k.append (.cons a .nil .nil)).ids := by
        simp [ids_append, Forest.ids]
      simp only [Forest.graft, if_pos hb, if_neg hba, if_pos hin, graft_append ha.2.1]
      simp [Forest.append]
    · by_cases hk : p ∈ k.ids
      · have hin : a.id ∈ (k.graft p (.cons a .nil .nil)).ids :=
          (mem_ids_graft hk).2 (.inr (by simp [Forest.ids]))
        simp only [Forest.graft, if_neg hb, if_pos hk, if_neg hba, if_pos hin, ihk hk ha.2.1]
      · have hr : p ∈ r.ids := by
          simp only [Forest.ids, List.mem_cons, List.mem_append] at hp
          rcases hp with h | h | h
          · exact absurd h.symm hb
          · exact absurd h hk
          · exact h
        simp only [Forest.graft, if_neg hb, if_neg hk, if_neg hba, if_neg ha.2.1, ihr hr ha.2.2]

theorem graft_nil {p : Int} {f : Forest} (hp : p ∈ f.ids) : f.graft p .nil = f := by
  induction f with
  | nil => rfl
  | cons b k r ihk ihr =>
    unfold Forest.graft
    by_cases hb : b.id = p
    · simp [hb, append_nil]
    · simp only [if_neg hb]
      by_cases hk : p ∈ k.ids
      · simp [hk, ihk hk]
      · have hr : p ∈ r.ids := by
          simp only [Forest.ids, List.mem_cons, List.mem_append] at hp
          rcases hp with h | h | h
          · exact absurd h.symm hb
          · exact absurd h hk
          · exact h
        simp [hk, ihr hr]

/-- The dictionary of a field, if any, is not loaded, and its position fits in 64 bits. -/
def Attr.Plain (a : Attr) : Prop :=
  ∀ d, a.dict = some d → d.values = none ∧ d.offset < 18446744073709551616 ∧
    d.length < 18446744073709551616

/-- A level of fields below parent `p`: each field names its parent and is plain. -/
def Forest.Linked (p : Int) : Forest → Prop
  | .nil => True
  | .cons a k r => a.parent = p ∧ a.Plain ∧ k.Linked a.id ∧ r.Linked p

theorem normAttr_plain {a : Attr} (h : a.Plain) : normAttr a = a := by
  obtain ⟨n, i, p, t, md, e, nl, d, c⟩ := a
  cases d with
  | none => rfl
  | some d =>
    obtain ⟨o, l, v⟩ := d
    obtain ⟨hv, ho, hl⟩ := h _ rfl
    dsimp only at hv ho hl
    simp [normAttr, ofI64_toI64 ho, ofI64_toI64 hl, hv]

theorem unflattenFrom_append (f : Forest) (x y : List PbField) :
    unflattenFrom f (x ++ y) = match unflattenFrom f x with
      | .error e => .error e
      | .ok g => unflattenFrom g y := by
  induction x generalizing f with
  | nil => rfl
  | cons p ps ih =>
    simp only [List.cons_append, unflattenFrom]
    cases addField f p with
    | error e => rfl
    | ok f' => exact ih f'

theorem unflatten_graft {g : Forest} :
    ∀ {p : Int} {f : Forest}, p ≠ -1 → p ∈ f.ids → g.Linked p → g.ids.Nodup → (∀ i ∈ g.ids, i ∉ f.ids) →
      (-1 : Int) ∉ g.ids → unflattenFrom f (flatten g) = .ok (f.graft p g) := by
  induction g with
  | nil =>
    intro p f _ hp _ _ _ _
    rw [graft_nil hp]; rfl
  | cons a c r ihc ihr =>
    intro p f hp1 hp hl hn hd hm
    obtain ⟨hpar, hna, hlc, hlr⟩ := hl
    simp only [Forest.ids, List.nodup_cons, List.nodup_append, List.mem_append, not_or,
      List.mem_cons] at hn hd hm
    obtain ⟨⟨hac, har⟩, hnc, hnr, hcr⟩ := hn
    have haf : a.id ∉ f.ids := hd a.id (.inl rfl)
    have hap : a.id ≠ p := fun e => haf (e ▸ hp)
    -- the field itself
    have h1 : addField f (encField a) = .ok (f.graft p (.cons a .nil .nil)) := by
      unfold addField
      rw [decField_encField, normAttr_plain hna]
      have : (encField a).parent = p := hpar
      simp only [this, if_neg hp1, pushAt_eq hp]
    -- its children
    have h2 : unflattenFrom (f.graft p (.cons a .nil .nil)) (flatten c) =
        .ok (f.graft p (.cons a c .nil)) := by
      rw [ihc (p := a.id) (fun e => hm.1 e.symm) ((mem_ids_graft hp).2 (.inr (by simp [Forest.ids]))) hlc hnc
        ?_ hm.2.1, graft_new hp haf]
      intro i hi hc
      rcases (mem_ids_graft hp).1 hc with h | h
      · exact hd i (.inr (.inl hi)) h
      · simp [Forest.ids] at h
        exact hac (h ▸ hi)
    -- the fields after it
    have h3 : unflattenFrom (f.graft p (.cons a c .nil)) (flatten r) =
        .ok (f.graft p (.cons a c r)) := by
      rw [ihr (p := p) hp1 ((mem_ids_graft hp).2 (.inl hp)) hlr hnr ?_ hm.2.2]
      · rw [graft_graft hp]
        · rfl
        · simp only [Forest.ids, List.mem_cons, List.mem_append, not_or]
          exact ⟨fun e => hap e.symm, fun h => hd p (.inr (.inl h)) hp, by simp⟩
      · intro i hi hc
        rcases (mem_ids_graft hp).1 hc with h | h
        · exact hd i (.inr (.inr hi)) h
        · simp only [Forest.ids, List.mem_cons, List.mem_append, List.not_mem_nil, or_false] at h
          rcases h with h | h
          · exact har (h ▸ hi)
          · exact hcr i h i hi rfl
    show unflattenFrom f (encField a :: (flatten c ++ flatten r)) = _
    simp only [unflattenFrom, h1]
    rw [unflattenFrom_append, h2]
    exact h3

theorem unflatten_top {g : Forest} :
    ∀ {f : Forest}, g.Linked (-1) → g.ids.Nodup → (∀ i ∈ g.ids, i ∉ f.ids) →
      (-1 : Int) ∉ g.ids → unflattenFrom f (flatten g) = .ok (f.append g) := by
  induction g with
  | nil => intro f _ _ _ _; rw [append_nil]; rfl
  | cons a c r _ ihr =>
    intro f hl hn hd hm
    obtain ⟨hpar, hna, hlc, hlr⟩ := hl
    simp only [Forest.ids, List.nodup_cons, List.nodup_append, List.mem_append, not_or,
      List.mem_cons] at hn hd hm
    obtain ⟨⟨hac, har⟩, hnc, hnr, hcr⟩ := hn
    have haf : a.id ∉ f.ids := hd a.id (.inl rfl)
    have h1 : addField f (encField a) = .ok (f.append (.cons a .nil .nil)) := by
      unfold addField
      rw [decField_encField, normAttr_plain hna]
      have : (encField a).parent = -1 := hpar
      simp only [this, push_eq, if_true]
    have h2 : unflattenFrom (f.append (.cons a .nil .nil)) (flatten c) =
        .ok (f.append (.cons a c .nil)) := by
      have hs : (Forest.cons a .nil .nil).graft a.id c = .cons a c .nil := by
        simp [Forest.graft, Forest.append]
      have hne : a.id ≠ -1 := fun e => hm.1 e.symm
      rw [unflatten_graft (p := a.id) hne (by simp [ids_append, Forest.ids]) hlc hnc ?_ hm.2.1,
        graft_append haf, hs]
      intro i hi hc
      simp only [ids_append, Forest.ids, List.mem_append, List.mem_cons, List.not_mem_nil, or_false] at hc
      rcases hc with h | h
      · exact hd i (.inr (.inl hi)) h
      · exact hac (h ▸ hi)
    have h3 : unflattenFrom (f.append (.cons a c .nil)) (flatten r) = .ok (f.append (.cons a c r)) := by
      rw [ihr hlr hnr ?_ hm.2.2]
      · rw [append_assoc]; rfl
      · intro i hi hc
        simp only [ids_append, Forest.ids, List.mem_append, List.mem_cons, List.not_mem_nil, or_false] at hc
        rcases hc with h | h | h
        · exact hd i (.inr (.inr hi)) h
        · exact har (h ▸ hi)
        · exact hcr i h i hi rfl
    show unflattenFrom f (encField a :: (flatten c ++ flatten r)) = _
    simp only [unflattenFrom, h1]
    rw [unflattenFrom_append, h2]
    exact h3

/-! ### Fragments and indices -/

theorem decUuid_encUuid (u : Uuid) : decUuid (encUuid u) = .ok u := by
  unfold decUuid encUuid
  rw [dif_pos (by simp)]

theorem decIdx_encIdx (i : Idx) : decIdx (encIdx i) = .ok i := by
  simp [decIdx, encIdx, reqUuid, decUuid_encUuid]

def normDel (d : DelFile) : DelFile := { d with num := if d.num = some 0 then none else d.num }
def normFrag (f : Frag) : Frag :=
  { f with del := f.del.map normDel, phys := if f.phys = some 0 then none else f.phys }

theorem decDel_encDel (d : DelFile) : decDel (encDel d) = .ok (normDel d) := by
  obtain ⟨r, i, t, n⟩ := d
  rcases n with _ | _ | n <;> cases t <;> simp [decDel, encDel, normDel]

theorem decFrag_encFrag (f : Frag) : decFrag (encFrag f) = .ok (normFrag f) := by
  obtain ⟨i, fs, d, ids, p⟩ := f
  have h : optE decDel (d.map encDel) = .ok (d.map normDel) := by
    cases d with
    | none => rfl
    | some d => simp [optE, decDel_encDel]
  rcases p with _ | _ | p <;> simp [decFrag, encFrag, h, normFrag]

end Verif.Stored
