import Verif.Evolve.LemmasFrags
namespace Verif.Evolve

/-! ### Creating a table -/

theorem colsOk_shape {n : Nat} : ∀ {items : Bool} {b : Tr Col}, ColsOk n items b → ShapeOk (b.map Col.attr)
  | _, .nil, _ => trivial
  | items, .cons c k r, h => by
    refine ⟨?_, colsOk_shape h.2.2.1, colsOk_shape h.2.2.2⟩
    have h1 := h.1
    show (match c.kind with | .leaf _ => _ | .list => _ | .struct => _ : Prop)
    cases hk : c.kind with
    | leaf t =>
      simp only [hk] at h1 ⊢
      rw [h1.1]; rfl
    | list =>
      simp only [hk] at h1 ⊢
      obtain ⟨⟨d, l, e⟩, _⟩ := h1
      rw [e]
      exact ⟨_, _, rfl⟩
    | struct =>
      simp only [hk] at h1 ⊢
      rw [ne_eq, Tr.map_eq_nil]
      exact h1.1

theorem colsOk_flat {n : Nat} : ∀ {items : Bool} {b : Tr Col}, ColsOk n items b → ∀ c ∈ b.flat, (c.kind = .struct → c.vals = []) ∧ (c.kind ≠ .struct → c.vals.length = n)
  | _, .nil, _, _, h => by cases h
  | items, .cons d k r, h, c, hc => by
    simp only [Tr.flat, List.mem_cons, List.mem_append] at hc
    rcases hc with rfl | hc | hc
    · have h1 := h.1
      cases hk : c.kind with
      | leaf t => simp only [hk] at h1; exact ⟨(fun e => by cases e), fun _ => h1.2⟩
      | list => simp only [hk] at h1; exact ⟨(fun e => by cases e), fun _ => h1.2⟩
      | struct => simp only [hk] at h1; exact ⟨fun _ => h1.2, fun e => absurd rfl e⟩
    · exact colsOk_flat h.2.2.1 c hc
    · exact colsOk_flat h.2.2.2 c hc

theorem within_of : ∀ {w s : Tr Attr}, (∀ u ∈ w.roots, byName u.1.name s = some u) → Distinct Attr.name w → Within w s
  | .nil, _, _, _ => trivial
  | .cons a k r, s, h, hd => by
    refine ⟨⟨k, h (a, k) (by simp [Tr.roots]), ?_⟩, within_of (fun u hu => h u (by simp [Tr.roots, hu])) hd.2.2⟩
    exact within_of (fun u hu => byName_of_mem (distinct_names hd.2.1) hu) hd.2.1

theorem within_refl {s : Tr Attr} (hd : Distinct Attr.name s) : Within s s :=
  within_of (fun _ hu => byName_of_mem (distinct_names hd) hu) hd

theorem distinct_attr {b : Tr Col} (h : Distinct Col.name b) : Distinct Attr.name (b.map Col.attr) := distinct_map.2 h

theorem create_ok {lg : Bool} {b : Data} {sizes : List Nat} {d : Ds} (hb : DataOk b) (hd : Distinct Col.name b.cols) (h : create lg b sizes = some d) :
    Inv d ∧ d.table = b := by
  unfold create at h
  simp only at h
  split at h
  case isFalse => cases h
  unfold setFieldId at h
  generalize hnext : max (maxId (ids (b.cols.map Col.attr))) (-1) + 1 = next at h
  have h0 : 0 ≤ next := by
    have := maxId_ge (ids (b.cols.map Col.attr))
    omega
  obtain ⟨Z, m, e, h1, h2, h3, h4, h5⟩ := setIds_zip Col.attr (fun b => by simp [Col.attr]) b.cols next
  rw [e] at h
  simp only at h
  have hx : ∀ x ∈ Z.flat, x.1.name = (Col.attr x.2).name ∧ x.1.kind = (Col.attr x.2).kind := by
    intro x hx
    have := h2 x hx
    constructor
    · rw [this]
    · rw [this]
  obtain ⟨hz1, hz2⟩ := zip_shape hx
  rw [← h1] at hz1 hz2
  have hs : SchemaOk (Z.map Prod.fst) := ⟨h5, fun i hi => by have := h4 i hi; omega, hz2.2 (distinct_attr hd), hz1.2 (colsOk_shape hb.1)⟩
  have hflat := colsOk_flat hb.1
  have hsnd : ∀ x ∈ Z.flat, x.2 ∈ b.cols.flat := by
    intro x hx
    rw [h1, Tr.flat_map]
    exact List.mem_map_of_mem hx
  cases e2 : writeFrags lg (Z.map Prod.fst) b sizes with
  | none => rw [e2] at h; cases h
  | some frags =>
    rw [e2] at h
    simp only [Option.map_some, Option.some.injEq] at h
    obtain ⟨f1, f2, f3, _⟩ := writeFrags_ok hs h1 (fun x hm => hx x hm) (fun x hm hk => (hflat _ (hsnd x hm)).2 hk) (within_refl hs.distinct) hs.distinct
      (fun t ht => Or.inl (fun i hi => mem_ids_root.2 ⟨t, ht, hi⟩)) e2
    subst h
    refine ⟨⟨hs, f1, ?_⟩, ?_⟩
    · intro hnil
      simp only [Tr.map_eq_nil] at hnil
      subst hnil
      exact absurd h1 hb.2
    · unfold Ds.table
      simp only
      rw [f2, Tr.map_map]
      have : Z.map (fun a => absCol frags a.1) = b.cols := by
        rw [h1]
        apply Tr.map_congr
        intro x hm
        have hv := hflat _ (hsnd x hm)
        unfold absCol Attr.col
        have h6 := h2 x hm
        have h7 : x.1.nullable = x.2.nullable := by rw [h6]; rfl
        have h8 : x.1.kind = x.2.kind := (hx x hm).2
        have h9 : x.1.name = x.2.name := (hx x hm).1
        by_cases hk : x.1.kind = .struct
        · rw [if_pos hk, h7, h9, ← hv.1 (h8 ▸ hk), h8]
        · rw [if_neg hk, h7, h9, f3 x hm hk, h8]
      rw [this]

/-! ### Appending rows -/

/-- The fields of a schema with their columns in the data. -/
def CoverZ : Tr Attr → Tr (Attr × Col) → Prop
  | .nil, _ => True
  | .cons a k r, Z => (∃ c zk, Z.find? (fun x => x.2.name == a.name) = some ((a, c), zk) ∧ CoverZ k zk) ∧ CoverZ r Z

theorem colByName_snd (x : Nat) (Z : Tr (Attr × Col)) : colByName x (Z.map Prod.snd) = (Z.find? (fun y => y.2.name == x)).map (fun t => (t.1.2, t.2.map Prod.snd)) := by
  rw [colByName_roots, Tr.find?_roots, Tr.roots_map, List.find?_map]
  rfl

/-- The pair that is found has the field of that name. -/
theorem find_within {s : Tr Attr} {Z : Tr (Attr × Col)} (hd : (s.roots.map (fun t => t.1.name)).Nodup) (hw : Within (Z.map Prod.fst) s)
    (hx : ∀ x ∈ Z.flat, x.1.name = x.2.name ∧ x.1.kind = x.2.kind) {t : Attr × Tr Attr} (ht : t ∈ s.roots) {c : Col × Tr Col}
    (hc : colByName t.1.name (Z.map Prod.snd) = some c) :
    ∃ zk, Z.find? (fun x => x.2.name == t.1.name) = some ((t.1, c.1), zk) ∧ c.2 = zk.map Prod.snd ∧ Within (zk.map Prod.fst) t.2 := by
  rw [colByName_snd] at hc
  cases e : Z.find? (fun y => y.2.name == t.1.name) with
  | none => rw [e] at hc; cases hc
  | some z =>
    rw [e] at hc
    simp only [Option.map_some, Option.some.injEq] at hc
    obtain ⟨hm, hn⟩ := Tr.mem_find? e
    simp only [beq_iff_eq] at hn
    have hr : (z.1.1, z.2.map Prod.fst) ∈ (Z.map Prod.fst).roots := by
      rw [Tr.roots_map]
      exact List.mem_map.2 ⟨z, hm, rfl⟩
    obtain ⟨sk, h1, h2⟩ := within_root hw hr
    simp only at h1 h2
    rw [(hx z.1 (Tr.root_mem_flat hm)).1, hn, byName_of_mem hd ht] at h1
    cases h1
    subst hc
    exact ⟨z.2, rfl, rfl, h2⟩

theorem coverZ_of : ∀ {r s : Tr Attr} {Z : Tr (Attr × Col)}, (∀ u ∈ r.roots, u ∈ s.roots) → Distinct Attr.name s → Within (Z.map Prod.fst) s →
    (∀ x ∈ Z.flat, x.1.name = x.2.name ∧ x.1.kind = x.2.kind) → Complete r (Z.map Prod.snd) → CoverZ r Z
  | .nil, _, _, _, _, _, _, _ => trivial
  | .cons a k r, s, Z, hr, hd, hw, hx, ⟨⟨t, h1, h2⟩, h3⟩ => by
    have hm := hr (a, k) (by simp [Tr.roots])
    obtain ⟨zk, e1, e2, e3⟩ := find_within (distinct_names hd) hw hx hm h1
    refine ⟨⟨t.1, zk, e1, ?_⟩, coverZ_of (fun u hu => hr u (by simp [Tr.roots, hu])) hd hw hx h3⟩
    rw [e2] at h2
    refine coverZ_of (s := k) (fun u hu => hu) (distinct_kids hd hm) e3 ?_ h2
    intro x hxm
    exact hx x (Tr.kid_mem_flat (Tr.mem_find? e1).1 hxm)

theorem coverZ_ids : ∀ {s : Tr Attr} {Z : Tr (Attr × Col)}, CoverZ s Z → ∀ i ∈ ids s, i ∈ ids (Z.map Prod.fst)
  | .nil, _, _, _, h => by cases h
  | .cons a k r, Z, ⟨⟨c, zk, h1, h2⟩, h3⟩, i, hi => by
    simp only [ids_cons, List.mem_cons, List.mem_append] at hi
    have hr : (a, zk.map Prod.fst) ∈ (Z.map Prod.fst).roots := by
      rw [Tr.roots_map]
      exact List.mem_map.2 ⟨_, (Tr.mem_find? h1).1, rfl⟩
    rcases hi with rfl | hi | hi
    · exact mem_ids.2 ⟨_, hr, Or.inl rfl⟩
    · exact mem_ids.2 ⟨_, hr, Or.inr (coverZ_ids h2 i hi)⟩
    · exact coverZ_ids h3 i hi

theorem specAppend_missing (n : Nat) {f : Attr → Col} (hf : ∀ a, (f a).kind = a.kind) : ∀ s : Tr Attr, specAppend n (s.map f) .nil =
    s.map (fun a => { f a with vals := (f a).vals ++ (if a.kind = .struct then [] else List.replicate n none) })
  | .nil => rfl
  | .cons a k r => by
    simp only [Tr.map, specAppend, colByName, Tr.find?, hf, specAppend_missing n hf k]
    have := specAppend_missing n hf r
    rw [this]
    simp only [hf]

theorem specAppend_cover (n : Nat) {f : Attr → Col} (hf : ∀ a, (f a).name = a.name) {val : Int → List Cell} :
    ∀ {s : Tr Attr} {Z : Tr (Attr × Col)}, CoverZ s Z → (∀ x ∈ Z.flat, (x.1.kind ≠ .struct → val x.1.id = x.2.vals) ∧ (x.1.kind = .struct → x.2.vals = [])) →
    specAppend n (s.map f) (Z.map Prod.snd) = s.map (fun a => { f a with vals := (f a).vals ++ (if a.kind = .struct then [] else val a.id) })
  | .nil, _, _, _ => rfl
  | .cons a k r, Z, ⟨⟨c, zk, h1, h2⟩, h3⟩, hv => by
    simp only [Tr.map, specAppend]
    rw [hf, colByName_snd, h1]
    simp only [Option.map_some]
    have hm := (Tr.mem_find? h1).1
    rw [specAppend_cover n hf h3 hv, specAppend_cover n hf h2 (fun x hx => hv x (Tr.kid_mem_flat hm hx))]
    have h4 := hv (a, c) (Tr.root_mem_flat hm)
    simp only at h4
    by_cases hk : a.kind = .struct
    · simp only [if_pos hk]
      rw [h4.2 hk]
    · simp only [if_neg hk]
      rw [h4.1 hk]

theorem specAppend_top (n : Nat) {f : Attr → Col} (hf : ∀ a, (f a).name = a.name) (hf' : ∀ a, (f a).kind = a.kind) {val : Int → List Cell}
    {Z : Tr (Attr × Col)} (hv : ∀ x ∈ Z.flat, (x.1.kind ≠ .struct → val x.1.id = x.2.vals) ∧ (x.1.kind = .struct → x.2.vals = [])) :
    ∀ {s : Tr Attr}, (∀ t ∈ s.roots, (∃ c zk, Z.find? (fun x => x.2.name == t.1.name) = some ((t.1, c), zk) ∧ CoverZ t.2 zk) ∨
      (colByName t.1.name (Z.map Prod.snd) = none ∧ ∀ i ∈ rootIds t, val i = List.replicate n none)) →
    specAppend n (s.map f) (Z.map Prod.snd) = s.map (fun a => { f a with vals := (f a).vals ++ (if a.kind = .struct then [] else val a.id) })
  | .nil, _ => rfl
  | .cons a k r, h => by
    have ih := specAppend_top n hf hf' hv (s := r) (fun t ht => h t (by simp [Tr.roots, ht]))
    have h0 := h (a, k) (by simp [Tr.roots])
    simp only at h0
    simp only [Tr.map, specAppend, ih]
    rw [hf]
    rcases h0 with ⟨c, zk, h1, h2⟩ | ⟨h1, h2⟩
    · rw [colByName_snd, h1]
      simp only [Option.map_some]
      have hm := (Tr.mem_find? h1).1
      rw [specAppend_cover n hf h2 (fun x hx => hv x (Tr.kid_mem_flat hm hx))]
      have h4 := hv (a, c) (Tr.root_mem_flat hm)
      simp only at h4
      by_cases hk : a.kind = .struct
      · simp only [if_pos hk]
        rw [h4.2 hk]
      · simp only [if_neg hk]
        rw [h4.1 hk]
    · rw [h1]
      simp only [specAppend_missing n hf']
      simp only [hf']
      rw [h2 a.id (by simp [rootIds])]
      congr 1
      apply Tr.map_congr
      intro b hb
      rw [h2 b.id]
      simp only [rootIds, List.mem_cons]
      exact Or.inr (List.mem_map_of_mem hb)

theorem append_ok {d d' : Ds} {b : Data} {sizes : List Nat} (hi : Inv d) (hb : DataOk b) (hd : Distinct Col.name b.cols) (hfine : AppendFine d b)
    (h : append d b sizes = some d') : Inv d' ∧ d'.table = ⟨d.table.n + b.n, specAppend b.n d.table.cols b.cols⟩ := by
  unfold append at h
  simp only at h
  split at h
  case isFalse => cases h
  cases e : projectBySchema d.schema (b.cols.map Col.attr) with
  | none => rw [e] at h; cases h
  | some w =>
    rw [e] at h
    simp only at h
    have hs := hi.schema
    obtain ⟨Z, h1, h2, hx, hw⟩ := pbs_zip Col.attr hs.shape (colsOk_shape hb.1) e
    subst h1
    obtain ⟨_, hz2⟩ := zip_shape hx
    rw [← h2] at hz2
    have hx' : ∀ x ∈ Z.flat, x.1.name = x.2.name ∧ x.1.kind = x.2.kind := hx
    have hflat := colsOk_flat hb.1
    have hsnd : ∀ x ∈ Z.flat, x.2 ∈ b.cols.flat := by
      intro x hx
      rw [h2, Tr.flat_map]
      exact List.mem_map_of_mem hx
    cases e2 : writeFrags d.legacy (Z.map Prod.fst) b sizes with
    | none => rw [e2] at h; cases h
    | some frags =>
      rw [e2] at h
      simp only [Option.map_some, Option.some.injEq] at h
      -- each field with its column
      have hcov : ∀ t ∈ d.schema.roots, (∃ c zk, Z.find? (fun x => x.2.name == t.1.name) = some ((t.1, c), zk) ∧ CoverZ t.2 zk) ∨
          (colByName t.1.name (Z.map Prod.snd) = none ∧ (∀ i ∈ rootIds t, i ∉ ids (Z.map Prod.fst)) ∧ d.legacy = false ∧
            ∀ a ∈ t.1 :: (if t.1.kind = .struct then strict t.2 else []), a.nullable = true) := by
        intro t ht
        rcases hfine t ht with ⟨c, hc, hcomp⟩ | ⟨hc, hl, hn⟩
        · rw [h2] at hc
          obtain ⟨zk, e1, e3, e4⟩ := find_within (distinct_names hs.distinct) hw hx' ht hc
          rw [e3] at hcomp
          refine Or.inl ⟨c.1, zk, e1, coverZ_of (s := t.2) (fun u hu => hu) (distinct_kids hs.distinct ht) e4 ?_ hcomp⟩
          intro x hxm
          exact hx' x (Tr.kid_mem_flat (Tr.mem_find? e1).1 hxm)
        · rw [h2] at hc
          refine Or.inr ⟨hc, ?_, hl, hn⟩
          intro i hit hiz
          obtain ⟨u, hu, hiu⟩ := mem_ids_root.1 hiz
          obtain ⟨sk, h3, h4⟩ := within_root hw hu
          have h5 : i ∈ rootIds (u.1, sk) := by
            simp only [rootIds, List.mem_cons] at hiu ⊢
            rcases hiu with e | hiu
            · exact Or.inl e
            · exact Or.inr (within_ids h4 hiu)
          have h6 := root_of_id hs.nodup ht (byName_mem h3).1 hit h5
          rw [Tr.roots_map] at hu
          obtain ⟨z, hz, rfl⟩ := List.mem_map.1 hu
          simp only at h6
          rw [colByName_snd] at hc
          simp only [Option.map_eq_none_iff] at hc
          rw [Tr.find?_roots, List.find?_eq_none] at hc
          have h7 := hc z hz
          rw [← (hx' z.1 (Tr.root_mem_flat hz)).1, h6] at h7
          simp at h7
      obtain ⟨f1, f2, f3, f4⟩ := writeFrags_ok hs h2 hx' (fun x hm hk => (hflat _ (hsnd x hm)).2 hk) hw (hz2.2 (distinct_attr hd)) (by
        intro t ht
        rcases hcov t ht with ⟨c, zk, e1, e3⟩ | ⟨_, h3, h4, h5⟩
        · left
          intro i hi
          have hr : (t.1, zk.map Prod.fst) ∈ (Z.map Prod.fst).roots := by
            rw [Tr.roots_map]
            exact List.mem_map.2 ⟨_, (Tr.mem_find? e1).1, rfl⟩
          refine mem_ids_root.2 ⟨_, hr, ?_⟩
          simp only [rootIds, List.mem_cons] at hi ⊢
          rcases hi with e | hi
          · exact Or.inl e
          · exact Or.inr (coverZ_ids e3 i hi)
        · exact Or.inr ⟨h3, h5, h4⟩) e2
      subst h
      have hne : d.schema ≠ .nil := by
        intro c
        cases hZ : Z with
        | nil =>
          subst hZ
          exact hb.2 h2
        | cons x k r =>
          subst hZ
          rw [c] at hw
          obtain ⟨⟨sk, h3, _⟩, _⟩ := hw
          simp [byName, Tr.find?] at h3
      refine ⟨⟨hs, ?_, fun c => absurd c hne⟩, ?_⟩
      · intro fr hfr
        rcases List.mem_append.1 hfr with hfr | hfr
        · exact hi.frags fr hfr
        · exact f1 fr hfr
      · unfold Ds.table
        simp only [absN_append, f2, Data.mk.injEq, true_and]
        rw [h2, specAppend_top b.n (f := absCol d.frags) (fun _ => rfl) (fun _ => rfl) (val := absVals frags)]
        · apply Tr.map_congr
          intro a _
          unfold absCol Attr.col
          by_cases hk : a.kind = .struct
          · simp [hk]
          · simp [hk, absVals_append]
        · intro x hm
          refine ⟨fun hk => f3 x hm hk, fun hk => (hflat _ (hsnd x hm)).1 ((hx' x hm).2 ▸ hk)⟩
        · intro t ht
          rcases hcov t ht with h | ⟨h3, h4, _⟩
          · exact Or.inl h
          · exact Or.inr ⟨h3, fun i hit => f4 i (h4 i hit)⟩

/-! ### Compacting fragments -/

theorem cut_zero : ∀ (sizes : List Nat) (off : Nat), cut sizes off 0 = []
  | [], _ => rfl
  | k :: ks, off => by
    unfold cut
    simp [cut_zero ks off]

theorem compact_ok {d d' : Ds} {lo len : Nat} {sizes : List Nat} (hi : Inv d) (h : compact d lo len sizes = some d') :
    Inv d' ∧ d'.table = d.table := by
  unfold compact at h
  have hsub : ∀ fr ∈ (d.frags.drop lo).take len, fr ∈ d.frags := fun fr hfr => List.mem_of_mem_drop (List.mem_of_mem_take hfr)
  have hs := hi.schema
  rw [readFrags_ok hs (Sub.refl hs) hs.distinct (fun fr hfr => hi.frags fr (hsub fr hfr))] at h
  simp only at h
  cases e : writeFrags d.legacy d.schema ⟨absN ((d.frags.drop lo).take len), d.schema.map (absCol ((d.frags.drop lo).take len))⟩ sizes with
  | none => rw [e] at h; cases h
  | some new =>
    rw [e] at h
    simp only [Option.map_some, Option.some.injEq] at h
    have hfst : (d.schema.map (fun a => (a, absCol ((d.frags.drop lo).take len) a))).map Prod.fst = d.schema := by
      rw [Tr.map_map]
      exact Tr.map_id' (fun _ _ => rfl)
    have e' := e
    rw [← hfst] at e'
    have hflat : ∀ x ∈ (d.schema.map (fun a => (a, absCol ((d.frags.drop lo).take len) a))).flat, ∃ a ∈ d.schema.flat, x = (a, absCol ((d.frags.drop lo).take len) a) := by
      intro x hx
      rw [Tr.flat_map] at hx
      obtain ⟨a, ha, rfl⟩ := List.mem_map.1 hx
      exact ⟨a, ha, rfl⟩
    obtain ⟨f1, f2, f3, _⟩ := writeFrags_ok hs (Z := d.schema.map (fun a => (a, absCol ((d.frags.drop lo).take len) a)))
      (b := ⟨absN ((d.frags.drop lo).take len), d.schema.map (absCol ((d.frags.drop lo).take len))⟩)
      (by rw [Tr.map_map]) (by intro x hx; obtain ⟨a, _, rfl⟩ := hflat x hx; exact ⟨rfl, rfl⟩)
      (by
        intro x hx hk
        obtain ⟨a, _, rfl⟩ := hflat x hx
        simp only [absCol, Attr.col] at hk ⊢
        rw [if_neg hk, absVals_length])
      (by rw [hfst]; exact within_refl hs.distinct) (by rw [hfst]; exact hs.distinct)
      (by rw [hfst]; exact fun t ht => Or.inl (fun i hi => mem_ids_root.2 ⟨t, ht, hi⟩)) (by rw [hfst] at e' ⊢; exact e')
    subst h
    have hsplit : d.frags = d.frags.take lo ++ (d.frags.drop lo).take len ++ (d.frags.drop lo).drop len := by
      rw [List.append_assoc, List.take_append_drop, List.take_append_drop]
    refine ⟨⟨hs, ?_, ?_⟩, ?_⟩
    · intro fr hfr
      rcases List.mem_append.1 hfr with hfr | hfr
      · rcases List.mem_append.1 hfr with hfr | hfr
        · exact hi.frags fr (List.mem_of_mem_take hfr)
        · exact f1 fr hfr
      · exact hi.frags fr (List.mem_of_mem_drop (List.mem_of_mem_drop hfr))
    · intro c
      have h0 := hi.empty c
      rw [h0] at e ⊢
      simp only [List.drop_nil, List.take_nil, List.nil_append, List.append_nil]
      simp only [writeFrags, List.drop_nil, List.take_nil, absN, List.map_nil, List.sum_nil, cut_zero, List.mapM_nil, Option.pure_def, Option.some.injEq] at e
      exact e.symm
    · unfold Ds.table
      simp only [Data.mk.injEq]
      constructor
      · rw [absN_append, absN_append, f2]
        conv => rhs; rw [hsplit]
        rw [absN_append, absN_append]
      · apply Tr.map_congr
        intro a ha
        unfold absCol Attr.col
        by_cases hk : a.kind = .struct
        · simp [hk]
        · have h3 := f3 (a, absCol ((d.frags.drop lo).take len) a) (by rw [Tr.flat_map]; exact List.mem_map.2 ⟨a, ha, rfl⟩) hk
          simp only [absCol, Attr.col, if_neg hk] at h3
          simp only [if_neg hk, absVals_append, h3, Col.mk.injEq, true_and]
          conv => rhs; rw [hsplit]
          rw [absVals_append, absVals_append]

end Verif.Evolve
