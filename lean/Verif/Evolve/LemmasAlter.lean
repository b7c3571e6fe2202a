import Verif.Evolve.LemmasDrop
namespace Verif.Evolve

/-! ### Paths and ids -/

theorem fieldAt_mem : ∀ {q : List Nat} {s : Tr Attr} {t : Attr × Tr Attr}, fieldAt q s = some t → t.1 ∈ s.flat
  | [], _, _, h => by cases h
  | [x], s, t, h => Tr.root_mem_flat (byName_mem (show byName x s = some t from h)).1
  | x :: y :: q, s, t, h => by
    unfold fieldAt at h
    cases e : byName x s with
    | none => rw [e] at h; cases h
    | some u =>
      rw [e] at h
      exact Tr.kid_mem_flat (byName_mem e).1 (fieldAt_mem (show fieldAt (y :: q) u.2 = some t from h))

/-- Where a path leads, seen from the root. -/
theorem fieldAt_root {x : Nat} {q : List Nat} {s : Tr Attr} {t : Attr × Tr Attr} (h : fieldAt (x :: q) s = some t) :
    ∃ u, byName x s = some u ∧ ((q = [] ∧ t = u) ∨ (q ≠ [] ∧ fieldAt q u.2 = some t)) := by
  cases q with
  | nil => exact ⟨t, h, Or.inl ⟨rfl, rfl⟩⟩
  | cons y q =>
    unfold fieldAt at h
    cases e : byName x s with
    | none => rw [e] at h; cases h
    | some u =>
      rw [e] at h
      exact ⟨u, rfl, Or.inr ⟨by simp, h⟩⟩

theorem fieldAt_inj : ∀ {p q : List Nat} {s : Tr Attr} {t u : Attr × Tr Attr}, (ids s).Nodup → fieldAt p s = some t → fieldAt q s = some u →
    t.1.id = u.1.id → p = q
  | [], _, _, _, _, _, h, _, _ => by cases h
  | _ :: _, [], _, _, _, _, _, h, _ => by cases h
  | x :: p, y :: q, s, t, u, hn, ht, hu, hid => by
    obtain ⟨a, ha, ha'⟩ := fieldAt_root ht
    obtain ⟨b, hb, hb'⟩ := fieldAt_root hu
    have hta : t.1.id ∈ rootIds a := by
      simp only [rootIds, List.mem_cons]
      rcases ha' with ⟨_, rfl⟩ | ⟨_, h⟩
      · exact Or.inl rfl
      · exact Or.inr (List.mem_map_of_mem (fieldAt_mem h))
    have hub : u.1.id ∈ rootIds b := by
      simp only [rootIds, List.mem_cons]
      rcases hb' with ⟨_, rfl⟩ | ⟨_, h⟩
      · exact Or.inl rfl
      · exact Or.inr (List.mem_map_of_mem (fieldAt_mem h))
    have hab := root_of_id hn (byName_mem ha).1 (byName_mem hb).1 hta (by rw [hid]; exact hub)
    subst hab
    have hxy : x = y := (byName_mem ha).2.symm.trans (byName_mem hb).2
    have hk := List.nodup_cons.1 (kids_nodup hn (byName_mem ha).1)
    subst hxy
    congr 1
    rcases ha' with ⟨h1, rfl⟩ | ⟨h1, h2⟩ <;> rcases hb' with ⟨h3, h4⟩ | ⟨h3, h4⟩
    · rw [h1, h3]
    · exfalso
      apply hk.1
      rw [hid]
      exact List.mem_map_of_mem (fieldAt_mem h4)
    · exfalso
      apply hk.1
      rw [show a.1.id = t.1.id by rw [← h4, hid]]
      exact List.mem_map_of_mem (fieldAt_mem h2)
    · exact fieldAt_inj hk.2 h2 h4 hid

theorem fieldAt_of_mem : ∀ {s : Tr Attr}, Distinct Attr.name s → ∀ {a : Attr}, a ∈ s.flat → ∃ q k, fieldAt q s = some (a, k)
  | .nil, _, _, h => by cases h
  | .cons b k r, hd, a, h => by
    simp only [Tr.flat, List.mem_cons, List.mem_append] at h
    rcases h with rfl | h | h
    · refine ⟨[a.name], k, ?_⟩
      show byName _ _ = _
      rw [byName_cons, if_pos rfl]
    · obtain ⟨q, l, e⟩ := fieldAt_of_mem hd.2.1 h
      cases q with
      | nil => cases e
      | cons x q =>
        refine ⟨b.name :: x :: q, l, ?_⟩
        unfold fieldAt
        rw [byName_cons, if_pos rfl]
        exact e
    · obtain ⟨q, l, e⟩ := fieldAt_of_mem hd.2.2 h
      refine ⟨q, l, ?_⟩
      cases q with
      | nil => cases e
      | cons x q =>
        obtain ⟨u, hu, _⟩ := fieldAt_root e
        have hx : b.name ≠ x := fun c => hd.1 u (byName_mem hu).1 ((byName_mem hu).2.trans c.symm)
        cases q with
        | nil =>
          show byName _ _ = _
          rw [byName_cons, if_neg hx]
          exact e
        | cons y q =>
          unfold fieldAt at e ⊢
          rw [byName_cons, if_neg hx]
          exact e

theorem mutById_nodup (i : Int) (g : Attr → Attr) : ∀ {t : Tr Attr}, (ids t).Nodup →
    mutById i g t = if i ∈ ids t then some (t.map (fun a => if a.id = i then g a else a)) else none
  | .nil, _ => by simp [mutById, ids, Tr.flat]
  | .cons a k r, hn => by
    rw [ids_cons, List.nodup_cons, List.nodup_append] at hn
    obtain ⟨h1, h2, h3, h4⟩ := hn
    rw [List.mem_append, not_or] at h1
    have same : ∀ {t : Tr Attr}, i ∉ ids t → t.map (fun a => if a.id = i then g a else a) = t := by
      intro t h
      apply Tr.map_id'
      intro b hb
      rw [if_neg]
      intro c
      exact h (by rw [← c]; exact List.mem_map_of_mem hb)
    unfold mutById
    rw [mutById_nodup i g h2, mutById_nodup i g h3]
    simp only [ids_cons, List.mem_cons, List.mem_append]
    by_cases ha : a.id = i
    · rw [if_pos ha, if_pos (Or.inl ha.symm)]
      simp only [Tr.map, if_pos ha]
      rw [same (by rw [← ha]; exact h1.1), same (by rw [← ha]; exact h1.2)]
    · rw [if_neg ha]
      by_cases hk : i ∈ ids k
      · rw [if_pos hk, if_pos (Or.inr (Or.inl hk))]
        simp only [Tr.map, if_neg ha]
        rw [same (fun c => h4 i hk i c rfl)]
      · rw [if_neg hk]
        by_cases hr : i ∈ ids r
        · rw [if_pos hr, if_pos (Or.inr (Or.inr hr))]
          simp only [Tr.map, if_neg ha, Option.map_some]
          rw [same hk]
        · rw [if_neg hr, if_neg (by rintro (c | c | c); exact ha c.symm; exact hk c; exact hr c)]
          rfl

/-! ### The altered schema -/

/-- What the alterations of one field have made of it. -/
structure NodeOk (M : Int) (st : AltState) (mine : List Alt) (q : List Nat) (a b : Attr) : Prop where
  name : b.name = (mine.filterMap Alt.rename).getLast?.getD a.name
  nullable : b.nullable = (mine.filterMap Alt.nullable).getLast?.getD a.nullable
  keep : a.nullable = true → b.nullable = true
  cast : (mine.filterMap Alt.cast = [] ∧ b.id = a.id ∧ b.kind = a.kind) ∨
    ∃ t0 t, mine.filterMap Alt.cast = [t] ∧ a.kind = .leaf t0 ∧ b.kind = .leaf t ∧ M < b.id ∧ b.id < st.next ∧ (q, a, b) ∈ st.casts

def minePath (alts : List Alt) (q : List Nat) : List Alt := alts.filter (fun al => al.path == q)

structure AltOk (M : Int) (s : Tr Attr) (done : List Alt) (st : AltState) (F : Attr → Attr) : Prop where
  schema : st.schema = s.map F
  next : M < st.next
  nodup : (ids (s.map F)).Nodup
  node : ∀ q a k, fieldAt q s = some (a, k) → NodeOk M st (minePath done q) q a (F a)
  casts : ∀ c ∈ st.casts, (∃ k, fieldAt c.1 s = some (c.2.1, k)) ∧ c.2.2 = F c.2.1 ∧ M < c.2.2.id ∧ ∃ al ∈ done, al.path = c.1 ∧ al.cast.isSome

theorem minePath_snoc (done : List Alt) (al : Alt) (q : List Nat) :
    minePath (done ++ [al]) q = minePath done q ++ (if al.path = q then [al] else []) := by
  unfold minePath
  rw [List.filter_append, List.filter_cons]
  by_cases h : al.path = q
  · simp [h]
  · simp [h]

theorem last_snoc {α β : Type} (f : α → Option β) (l : List α) (x : α) (d : β) :
    ((l ++ [x]).filterMap f).getLast?.getD d = (f x).getD ((l.filterMap f).getLast?.getD d) := by
  rw [List.filterMap_append]
  cases h : f x with
  | none => simp [h]
  | some y => simp [h]

theorem mut_step {M : Int} {s : Tr Attr} {done : List Alt} {st : AltState} {F : Attr → Attr} (hs : SchemaOk s) (hM : ∀ i ∈ ids s, i ≤ M) (h : AltOk M s done st F)
    {q0 : List Nat} {a0 : Attr} {k0 : Tr Attr} (h0 : fieldAt q0 s = some (a0, k0)) {g : Attr → Attr} {s1 : Tr Attr}
    (hm : mutById a0.id g st.schema = some s1) :
    (F a0).id = a0.id ∧ s1 = s.map (fun a => if a = a0 then g (F a) else F a) := by
  have ha0 := fieldAt_mem h0
  rw [h.schema, mutById_nodup _ _ h.nodup] at hm
  split at hm
  case isFalse => cases hm
  rename_i hin
  simp only [Option.some.injEq] at hm
  -- the field with this id is the source
  have hsrc : ∀ a ∈ s.flat, (F a).id = a0.id → a = a0 := by
    intro a ha e
    obtain ⟨q, k, hq⟩ := fieldAt_of_mem hs.distinct ha
    rcases (h.node q a k hq).cast with ⟨_, h2, _⟩ | ⟨_, _, _, _, _, h2, _, _⟩
    · exact same_attr hs.nodup ha ha0 (h2.symm.trans e)
    · have := hM a0.id (List.mem_map_of_mem ha0)
      omega
  have hF0 : (F a0).id = a0.id := by
    simp only [ids, Tr.flat_map, List.map_map, List.mem_map, Function.comp] at hin
    obtain ⟨a, ha, e⟩ := hin
    have := hsrc a ha e
    subst this
    exact e
  refine ⟨hF0, ?_⟩
  rw [← hm, Tr.map_map]
  apply Tr.map_congr
  intro a ha
  by_cases e : a = a0
  · rw [if_pos e, e, if_pos hF0]
  · rw [if_neg e, if_neg (fun c => e (hsrc a ha c))]

theorem nodup_map_ids {s : Tr Attr} {F G : Attr → Attr} (hs : (ids s).Nodup) (h : (ids (s.map F)).Nodup) {a0 : Attr} {m : Int}
    (hm : ∀ a ∈ s.flat, (F a).id ≠ m) (hG : ∀ a ∈ s.flat, (G a).id = if a = a0 then m else (F a).id) : (ids (s.map G)).Nodup := by
  simp only [ids, Tr.flat_map, List.map_map, List.nodup_iff_pairwise_ne, List.pairwise_map, Function.comp] at hs h ⊢
  have hs' := hs.and h
  refine List.Pairwise.imp_of_mem ?_ hs'
  intro a b ha hb hab
  rw [hG a ha, hG b hb]
  split
  · split
    · rename_i e1 e2
      exact absurd (by rw [e1, e2]) hab.1
    · exact fun c => hm b hb c.symm
  · split
    · exact hm a ha
    · exact hab.2

theorem alterOne_ok {cs : Casts} {M : Int} {s : Tr Attr} {done : List Alt} {st st' : AltState} {F : Attr → Attr} (hs : SchemaOk s) (hM : ∀ i ∈ ids s, i ≤ M)
    (h : AltOk M s done st F) {al : Alt} (ho : alterOne cs s st al = some st') : ∃ F', AltOk M s (done ++ [al]) st' F' := by
  unfold alterOne at ho
  cases e0 : fieldAt al.path s with
  | none => rw [e0] at ho; cases ho
  | some t =>
  obtain ⟨a0, k0⟩ := t
  rw [e0] at ho
  simp only at ho
  split at ho
  · cases ho
  rename_i hnull
  have hkeep : a0.nullable = true → al.nullable ≠ some false := by
    intro h1 h2
    apply hnull
    simp [h1, h2]
  have ha0 := fieldAt_mem e0
  have hpath : ∀ q a k, fieldAt q s = some (a, k) → (al.path = q ↔ a = a0) := by
    intro q a k hq
    constructor
    · intro e
      rw [← e, e0] at hq
      simp only [Option.some.injEq, Prod.mk.injEq] at hq
      exact hq.1.symm
    · intro e
      exact fieldAt_inj hs.nodup e0 hq (by simp [e])
  have hother : ∀ c ∈ st.casts, (F a0).id = a0.id → c.2.1 ≠ a0 := by
    intro c hc hF e
    obtain ⟨_, h2, h3, _⟩ := h.casts c hc
    rw [h2, e, hF] at h3
    have := hM a0.id (List.mem_map_of_mem ha0)
    omega
  cases ec : al.cast with
  | none =>
    rw [ec] at ho
    simp only at ho
    cases em : mutById a0.id (fun a => { a with name := al.rename.getD a.name, nullable := al.nullable.getD a.nullable }) st.schema with
    | none => rw [em] at ho; cases ho
    | some s1 =>
      rw [em] at ho
      simp only [Option.map_some, Option.some.injEq] at ho
      obtain ⟨hF0, hs1⟩ := mut_step hs hM h e0 em
      subst ho
      refine ⟨_, hs1, h.next, ?_, ?_, ?_⟩
      · refine (show ids _ = ids (s.map F) from ?_) ▸ h.nodup
        simp only [ids, Tr.flat_map, List.map_map]
        apply List.map_congr_left
        intro a _
        simp only [Function.comp]
        split <;> rfl
      · intro q a k hq
        have hn := h.node q a k hq
        rw [minePath_snoc]
        by_cases e : al.path = q
        · have ea := (hpath q a k hq).1 e
          rw [if_pos e]
          simp only [if_pos ea]
          refine ⟨?_, ?_, ?_, ?_⟩
          · rw [last_snoc, ← hn.name]
          · rw [last_snoc, ← hn.nullable]
          · intro h1
            simp only
            cases e2 : al.nullable with
            | none => exact hn.keep h1
            | some b =>
              cases b with
              | true => rfl
              | false => exact absurd e2 (hkeep (by rw [← ea]; exact h1))
          · left
            rcases hn.cast with ⟨h1, h2, h3⟩ | ⟨_, _, _, _, _, h2, _⟩
            · refine ⟨?_, h2, h3⟩
              rw [List.filterMap_append, h1]
              simp [ec]
            · exfalso
              have := hM a0.id (List.mem_map_of_mem ha0)
              rw [ea, hF0] at h2
              omega
        · rw [if_neg e, List.append_nil]
          simp only [if_neg (fun c => e ((hpath q a k hq).2 c))]
          exact ⟨hn.name, hn.nullable, hn.keep, hn.cast⟩
      · intro c hc
        obtain ⟨h1, h2, h3, al', h4, h5⟩ := h.casts c hc
        refine ⟨h1, ?_, h3, al', by simp [h4], h5⟩
        simp only [if_neg (hother c hc hF0)]
        exact h2
  | some t =>
    rw [ec] at ho
    simp only at ho
    cases ek : a0.kind with
    | struct => rw [ek] at ho; cases ho
    | list => rw [ek] at ho; cases ho
    | leaf t0 =>
    rw [ek] at ho
    simp only at ho
    split at ho
    case isFalse => cases ho
    cases em : mutById a0.id (fun a => ⟨al.rename.getD a.name, st.next, .leaf t, al.nullable.getD a.nullable⟩) st.schema with
    | none => rw [em] at ho; cases ho
    | some s1 =>
      rw [em] at ho
      obtain ⟨hF0, hs1⟩ := mut_step hs hM h e0 em
      have hfind : st.schema.flat.find? (fun a => a.id == a0.id) = some (F a0) := by
        rw [h.schema, Tr.flat_map]
        have := find_key Attr.id (l := s.flat.map F) (by
          have := h.nodup
          simp only [ids, Tr.flat_map] at this
          exact this) (List.mem_map_of_mem (f := F) ha0)
        rw [hF0] at this
        exact this
      rw [hfind] at ho
      simp only [Option.some.injEq] at ho
      subst ho
      have hlt : ∀ a ∈ s.flat, (F a).id < st.next := by
        intro a ha
        obtain ⟨q, k, hq⟩ := fieldAt_of_mem hs.distinct ha
        rcases (h.node q a k hq).cast with ⟨_, h2, _⟩ | ⟨_, _, _, _, _, _, h2, _⟩
        · have := hM a.id (List.mem_map_of_mem ha)
          have := h.next
          omega
        · exact h2
      refine ⟨_, hs1, ?_, ?_, ?_, ?_⟩
      · have := h.next
        simp only
        omega
      · refine nodup_map_ids hs.nodup h.nodup (a0 := a0) (m := st.next) ?_ ?_
        · intro a ha
          have := hlt a ha
          omega
        · intro a _
          split <;> rfl
      · intro q a k hq
        have hn := h.node q a k hq
        rw [minePath_snoc]
        by_cases e : al.path = q
        · have ea := (hpath q a k hq).1 e
          rw [if_pos e]
          simp only [if_pos ea]
          refine ⟨?_, ?_, ?_, ?_⟩
          · rw [last_snoc, ← hn.name]
          · rw [last_snoc, ← hn.nullable]
          · intro h1
            simp only
            cases e2 : al.nullable with
            | none => exact hn.keep h1
            | some b =>
              cases b with
              | true => rfl
              | false => exact absurd e2 (hkeep (by rw [← ea]; exact h1))
          · right
            rcases hn.cast with ⟨h1, h2, h3⟩ | ⟨_, _, _, _, _, h2, _⟩
            · refine ⟨t0, t, ?_, by rw [ea]; exact ek, rfl, h.next, ?_, ?_⟩
              · rw [List.filterMap_append, h1]
                simp [ec]
              · simp only; omega
              · rw [List.mem_append]
                right
                rw [← e, ea]
                simp
            · exfalso
              have := hM a0.id (List.mem_map_of_mem ha0)
              rw [ea, hF0] at h2
              omega
        · rw [if_neg e, List.append_nil]
          simp only [if_neg (fun c => e ((hpath q a k hq).2 c))]
          refine ⟨hn.name, hn.nullable, hn.keep, ?_⟩
          rcases hn.cast with h1 | ⟨t1, t2, g1, g2, g3, g4, g5, g6⟩
          · exact Or.inl h1
          · refine Or.inr ⟨t1, t2, g1, g2, g3, g4, ?_, ?_⟩
            · simp only; omega
            · simp [g6]
      · intro c hc
        rcases List.mem_append.1 hc with hc | hc
        · obtain ⟨h1, h2, h3, al', h4, h5⟩ := h.casts c hc
          refine ⟨h1, ?_, h3, al', by simp [h4], h5⟩
          simp only [if_neg (hother c hc hF0)]
          exact h2
        · simp only [List.mem_singleton] at hc
          subst hc
          exact ⟨⟨k0, e0⟩, by simp, h.next, al, by simp, rfl, by simp [ec]⟩

theorem alterAll_ok {cs : Casts} {M : Int} {s : Tr Attr} (hs : SchemaOk s) (hM : ∀ i ∈ ids s, i ≤ M) : ∀ {alts done : List Alt} {st st' : AltState} {F : Attr → Attr},
    AltOk M s done st F → alterAll cs s st alts = some st' → ∃ F', AltOk M s (done ++ alts) st' F'
  | [], done, st, st', F, h, ha => by
    simp only [alterAll, Option.some.injEq] at ha
    subst ha
    exact ⟨F, by rw [List.append_nil]; exact h⟩
  | al :: alts, done, st, st', F, h, ha => by
    unfold alterAll at ha
    cases e : alterOne cs s st al with
    | none => rw [e] at ha; cases ha
    | some st1 =>
      rw [e] at ha
      obtain ⟨F1, h1⟩ := alterOne_ok hs hM h e
      obtain ⟨F2, h2⟩ := alterAll_ok hs hM h1 (show alterAll cs s st1 alts = some st' from ha)
      exact ⟨F2, by rw [List.append_assoc] at h2; exact h2⟩

theorem alterAll_start {cs : Casts} {d : Ds} (hs : SchemaOk d.schema) {alts : List Alt} {st : AltState}
    (h : alterAll cs d.schema ⟨d.schema, [], d.maxFieldId + 1⟩ alts = some st) : ∃ F, AltOk d.maxFieldId d.schema alts st F := by
  have := alterAll_ok (M := d.maxFieldId) (done := []) (F := id) hs (fun i hi => le_maxFieldId hi)
    ⟨(Tr.map_id' (fun _ _ => rfl)).symm, by simp only; omega, by rw [show d.schema.map id = d.schema from Tr.map_id' (fun _ _ => rfl)]; exact hs.nodup,
      fun q a k _ => ⟨rfl, rfl, id, Or.inl ⟨rfl, rfl, rfl⟩⟩, fun c hc => by cases hc⟩ h
  simpa using this

/-! ### What the user sees of it -/

theorem specAlter_map {cs : Casts} {alts : List Alt} {f h : Attr → Col} (hf : ∀ a, (f a).name = a.name) : ∀ {s : Tr Attr} {pre : List Nat}, Distinct Attr.name s →
    (∀ q a k, fieldAt q s = some (a, k) → specAlterCol cs (minePath alts (pre ++ q)) (f a) = some (h a)) → specAlter cs alts pre (s.map f) = some (s.map h)
  | .nil, _, _, _ => rfl
  | .cons a k r, pre, hd, hn => by
    simp only [Tr.map, specAlter, hf]
    have h1 := hn [a.name] a k (by show byName _ _ = _; rw [byName_cons, if_pos rfl])
    have h2 : specAlter cs alts (pre ++ [a.name]) (k.map f) = some (k.map h) := by
      apply specAlter_map hf hd.2.1
      intro q b l hq
      rw [List.append_assoc]
      apply hn _ b l
      cases q with
      | nil => cases hq
      | cons x q =>
        simp only [List.singleton_append]
        unfold fieldAt
        rw [byName_cons, if_pos rfl]
        exact hq
    have h3 : specAlter cs alts pre (r.map f) = some (r.map h) := by
      apply specAlter_map hf hd.2.2
      intro q b l hq
      apply hn _ b l
      cases q with
      | nil => cases hq
      | cons x q =>
        obtain ⟨u, hu, _⟩ := fieldAt_root hq
        have hx : a.name ≠ x := fun c => hd.1 u (byName_mem hu).1 ((byName_mem hu).2.trans c.symm)
        cases q with
        | nil =>
          show byName _ _ = _
          rw [byName_cons, if_neg hx]
          exact hq
        | cons y q =>
          unfold fieldAt at hq ⊢
          rw [byName_cons, if_neg hx]
          exact hq
    unfold minePath at h1
    rw [h1, h2, h3]

end Verif.Evolve
