import Verif.Evolve.LemmasNew
namespace Verif.Evolve

/-! ### New fragments -/

theorem cut_flatten : ∀ (sizes : List Nat) (off n : Nat), (cut sizes off n).flatten = List.range' off n
  | [], off, n => by
    unfold cut
    split
    · rename_i h; subst h; rfl
    · simp
  | k :: ks, off, n => by
    unfold cut
    simp only
    split
    · exact cut_flatten ks off n
    · rw [List.flatten_cons, cut_flatten ks]
      have := List.range'_append (s := off) (m := min k n) (n := n - min k n) (step := 1)
      simp only [Nat.one_mul] at this
      rw [this]
      congr 1
      omega

theorem mapM_inv {α β : Type} {f : α → Option β} {g : α → β} {Q : α → Prop} : ∀ {l : List α} {r : List β},
    (∀ a ∈ l, ∀ b, f a = some b → b = g a ∧ Q a) → l.mapM f = some r → r = l.map g ∧ ∀ a ∈ l, Q a
  | [], r, _, h => by
    simp only [List.mapM_nil, Option.pure_def, Option.some.injEq] at h
    subst h
    exact ⟨rfl, by simp⟩
  | a :: l, r, hf, h => by
    rw [List.mapM_cons] at h
    cases e : f a with
    | none => rw [e] at h; cases h
    | some b =>
      rw [e] at h
      cases e2 : l.mapM f with
      | none => rw [e2] at h; cases h
      | some r' =>
        rw [e2] at h
        simp only [Option.pure_def, Option.bind_eq_bind, Option.bind_some, Option.some.injEq] at h
        subst h
        obtain ⟨h1, h2⟩ := mapM_inv (fun x hx => hf x (by simp [hx])) e2
        obtain ⟨h3, h4⟩ := hf a (by simp) b e
        refine ⟨by rw [List.map_cons, h1, h3], ?_⟩
        intro x hx
        rcases List.mem_cons.1 hx with rfl | hx
        · exact h4
        · exact h2 x hx

def pickC (rows : List Nat) (c : Col) : Col := { c with vals := if c.kind = .struct then [] else pickVals rows c.vals }

def pickZ (rows : List Nat) (Z : Tr (Attr × Col)) : Tr (Attr × Col) := Z.map (fun x => (x.1, pickC rows x.2))

theorem pickZ_fst (rows : List Nat) (Z : Tr (Attr × Col)) : (pickZ rows Z).map Prod.fst = Z.map Prod.fst := by
  simp [pickZ, Tr.map_map]

theorem pickZ_snd (rows : List Nat) (Z : Tr (Attr × Col)) : (pickZ rows Z).map Prod.snd = pickCols rows (Z.map Prod.snd) := by
  simp [pickZ, Tr.map_map, pickCols, pickC]

theorem pickZ_flat {rows : List Nat} {Z : Tr (Attr × Col)} {x : Attr × Col} (h : x ∈ Z.flat) : (x.1, pickC rows x.2) ∈ (pickZ rows Z).flat := by
  rw [pickZ, Tr.flat_map]
  exact List.mem_map.2 ⟨x, h, rfl⟩

/-- Looking up by name before and after picking rows. -/
theorem colByName_pick (rows : List Nat) (x : Nat) (B : Tr Col) : colByName x (pickCols rows B) = (colByName x B).map (fun t => (pickC rows t.1, pickCols rows t.2)) := by
  rw [colByName_roots, colByName_roots, pickCols, Tr.roots_map, List.find?_map]
  rfl

/-- What writing a file does. -/
theorem writeFile_zip {lg : Bool} {Z : Tr (Attr × Col)} {b : Data} {file : File}
    (hz : ∀ z ∈ Z.roots, colByName z.1.1.name b.cols = some (z.1.2, z.2.map Prod.snd)) (h : writeFile lg (Z.map Prod.fst) b = some file) :
    file = fileOf lg b.n Z ∧ verifyNulls (Z.map Prod.fst) b.cols = true ∧ validate (Z.map Prod.fst) = true := by
  unfold writeFile at h
  split at h
  · rename_i hc
    rw [Bool.and_eq_true] at hc
    rw [storeTop_zip hz] at h
    simp only [Option.map_some, Option.some.injEq] at h
    exact ⟨h.symm, hc.2, hc.1⟩
  · cases h

theorem pickZ_roots {rows : List Nat} {Z : Tr (Attr × Col)} {B : Tr Col} (hz : ∀ z ∈ Z.roots, colByName z.1.1.name B = some (z.1.2, z.2.map Prod.snd)) :
    ∀ z ∈ (pickZ rows Z).roots, colByName z.1.1.name (pickCols rows B) = some (z.1.2, z.2.map Prod.snd) := by
  intro z hm
  rw [pickZ, Tr.roots_map] at hm
  obtain ⟨y, hy, rfl⟩ := List.mem_map.1 hm
  simp only
  rw [colByName_pick, hz y hy]
  have := pickZ_snd rows y.2
  unfold pickZ at this
  simp [this]

/-- A field of the schema that is written is written with the same properties. -/
theorem same_attr {s : Tr Attr} (hn : (ids s).Nodup) {a b : Attr} (ha : a ∈ s.flat) (hb : b ∈ s.flat) (h : a.id = b.id) : a = b := by
  have h1 := find_key Attr.id hn ha
  have h2 := find_key Attr.id hn hb
  rw [h] at h1
  rw [h1] at h2
  exact Option.some.inj h2

theorem within_strict_back : ∀ {w s : Tr Attr}, Within w s → (ids s).Nodup → ∀ {a}, a ∈ w.flat → a ∈ strict s → a ∈ strict w
  | .nil, _, _, _, _, h, _ => by cases h
  | .cons b k r, s, ⟨⟨sk, h1, h2⟩, h3⟩, hn, a, ha, hs => by
    have hm := (byName_mem h1).1
    have hr := kids_nodup hn hm
    simp only [rootIds, List.nodup_cons] at hr
    simp only [Tr.flat, List.mem_cons, List.mem_append] at ha
    simp only [strict, List.mem_cons, List.mem_append]
    rcases ha with ha | ha | ha
    · exact Or.inl ha
    · have hsk := within_flat h2 ha
      obtain ⟨t, ht, h4⟩ := mem_strict_root.1 hs
      have hi1 : a.id ∈ rootIds (b, sk) := by
        simp only [rootIds, List.mem_cons]
        exact Or.inr (List.mem_map_of_mem hsk)
      have hi2 : a.id ∈ rootIds t := by
        simp only [rootIds, List.mem_cons]
        rcases h4 with rfl | ⟨_, h4⟩
        · exact Or.inl rfl
        · exact Or.inr (List.mem_map_of_mem (strict_flat h4))
      have e := root_of_id hn hm ht hi1 hi2
      subst e
      rcases h4 with rfl | ⟨hk, h4⟩
      · exact absurd (List.mem_map_of_mem hsk) hr.1
      · right; left
        simp only at hk h4
        rw [if_pos hk]
        exact within_strict_back h2 hr.2 ha h4
    · exact Or.inr (Or.inr (within_strict_back h3 hn ha hs))

theorem mem_fst {β : Type} {Z : Tr (Attr × β)} {i : Int} (h : i ∈ ids (Z.map Prod.fst)) : ∃ x ∈ Z.flat, x.1.id = i := by
  simp only [ids, Tr.flat_map, List.map_map, List.mem_map, Function.comp] at h
  exact h

theorem mem_fst' {β : Type} {Z : Tr (Attr × β)} {x : Attr × β} (h : x ∈ Z.flat) : x.1 ∈ (Z.map Prod.fst).flat := by
  rw [Tr.flat_map]
  exact List.mem_map_of_mem h

theorem pickVals_all {rows : List Nat} {n : Nat} {v : List Cell} (h : pickVals rows v = v) (hl : rows.length = n) : v.length = n := by
  rw [← hl, ← h]
  simp [pickVals]

theorem pickVals_flatten (ls : List (List Nat)) (v : List Cell) : ls.flatMap (fun rows => pickVals rows v) = pickVals ls.flatten v := by
  induction ls with
  | nil => rfl
  | cons l ls ih =>
    rw [List.flatMap_cons, ih]
    simp [pickVals]

theorem pickVals_replicate (rows : List Nat) (n : Nat) : pickVals rows (List.replicate n none) = List.replicate rows.length none := by
  unfold pickVals
  rw [List.eq_replicate_iff]
  refine ⟨by simp, ?_⟩
  intro b hb
  obtain ⟨i, _, rfl⟩ := List.mem_map.1 hb
  rw [List.getD_eq_getElem?_getD, List.getElem?_replicate]
  split <;> rfl

theorem pick_fresh (rows : List Nat) (v : List Cell) : pickVals (alive rows.length []) (pickVals rows v) = pickVals rows v := by
  rw [alive_nil, pickVals_range (by simp [pickVals])]

/-- The fragments of new rows. -/
theorem writeFrags_ok {lg : Bool} {s : Tr Attr} {Z : Tr (Attr × Col)} {b : Data} {sizes : List Nat} {frags : List Frag}
    (hs : SchemaOk s) (hb : b.cols = Z.map Prod.snd) (hx : ∀ x ∈ Z.flat, x.1.name = x.2.name ∧ x.1.kind = x.2.kind)
    (hlen : ∀ x ∈ Z.flat, x.2.kind ≠ .struct → x.2.vals.length = b.n) (hw : Within (Z.map Prod.fst) s) (hd : Distinct Attr.name (Z.map Prod.fst))
    (hroots : ∀ t ∈ s.roots, (∀ i ∈ rootIds t, i ∈ ids (Z.map Prod.fst)) ∨ ((∀ i ∈ rootIds t, i ∉ ids (Z.map Prod.fst)) ∧
        (∀ a ∈ t.1 :: (if t.1.kind = .struct then strict t.2 else []), a.nullable = true) ∧ lg = false))
    (h : writeFrags lg (Z.map Prod.fst) b sizes = some frags) :
    (∀ fr ∈ frags, FragOk lg s fr) ∧ absN frags = b.n ∧ (∀ x ∈ Z.flat, x.1.kind ≠ .struct → absVals frags x.1.id = x.2.vals) ∧
    (∀ i, i ∉ ids (Z.map Prod.fst) → absVals frags i = List.replicate b.n none) := by
  have hidn := within_nodup hw hs.nodup hd
  have hz : ∀ z ∈ Z.roots, colByName z.1.1.name b.cols = some (z.1.2, z.2.map Prod.snd) := by
    intro z hm
    rw [hb]
    refine colByName_zip (fun y hy => (hx y.1 (Tr.root_mem_flat hy)).1) ?_ hm
    have := distinct_names hd
    rw [Tr.roots_map, List.map_map] at this
    exact this
  unfold writeFrags at h
  obtain ⟨h1, h2⟩ := mapM_inv (g := fun rows => (⟨[], rows.length, []⟩ : Frag).addFile (fileOf lg rows.length (pickZ rows Z)))
    (Q := fun rows => ∀ x ∈ strictZ (pickZ rows Z), nullOk x.1.nullable x.2.vals = true) (by
      intro rows _ fr hfr
      rw [← pickZ_fst rows] at hfr
      cases e : writeFile lg ((pickZ rows Z).map Prod.fst) (b.pick rows) with
      | none => rw [e] at hfr; cases hfr
      | some file =>
        rw [e] at hfr
        simp only [Option.map_some, Option.some.injEq] at hfr
        obtain ⟨e1, e2, _⟩ := writeFile_zip (pickZ_roots hz) e
        subst hfr e1
        refine ⟨rfl, ?_⟩
        rw [show (b.pick rows).cols = (pickZ rows Z).map Prod.snd by rw [pickZ_snd, Data.pick, hb]] at e2
        exact verifyNulls_zip.1 e2) h
  subst h1
  have hpn : ∀ rows, (ids ((pickZ rows Z).map Prod.fst)).Nodup := fun rows => by rw [pickZ_fst]; exact hidn
  refine ⟨?_, ?_, ?_, ?_⟩
  · intro fr hfr
    obtain ⟨rows, hrows, rfl⟩ := List.mem_map.1 hfr
    have hsame : ∀ a ∈ s.flat, a.id ∈ ids ((pickZ rows Z).map Prod.fst) → ∃ x ∈ (pickZ rows Z).flat, x.1 = a := by
      intro a ha hi
      obtain ⟨x, hxm, e⟩ := mem_fst hi
      refine ⟨x, hxm, same_attr hs.nodup ?_ ha e⟩
      have := mem_fst' hxm
      rw [pickZ_fst] at this
      exact within_flat hw this
    refine fragOk_addFile (fr := ⟨[], rows.length, []⟩) (by simp) (by simp) (by simp) (by simp) (hpn rows) (by simp) ?_ (h2 rows hrows) ?_ ?_ ?_ hsame ?_
    · intro x hxm hk
      rw [pickZ, Tr.flat_map] at hxm
      obtain ⟨y, hy, rfl⟩ := List.mem_map.1 hxm
      simp only at hk
      have : y.2.kind ≠ .struct := by rw [← (hx y hy).2]; exact hk
      simp [pickC, this, pickVals]
    · intro t ht
      rw [pickZ_fst]
      rcases hroots t ht with h | h
      · exact Or.inl h
      · exact Or.inr (Or.inr ⟨by simp, h⟩)
    · intro a _ _ v hv
      simp [Frag.lookup] at hv
    · intro a _ _ v hv
      simp [Frag.lookup] at hv
    · intro a ha hi
      obtain ⟨x, hxm, rfl⟩ := hsame a (strict_flat ha) hi
      have h3 := mem_fst' hxm
      rw [pickZ_fst] at h3
      have := within_strict_back hw hs.nodup h3 ha
      rw [← pickZ_fst rows, ← strictZ_fst] at this
      obtain ⟨y, hy, e⟩ := List.mem_map.1 this
      exact ⟨y, hy, e⟩
  · have := cut_flatten sizes 0 b.n
    have h3 : (cut sizes 0 b.n).flatten.length = b.n := by rw [this]; simp
    rw [List.length_flatten] at h3
    unfold absN
    rw [List.map_map]
    refine Eq.trans ?_ h3
    congr 1
    apply List.map_congr_left
    intro rows _
    simp only [Function.comp, Frag.addFile]
    rw [alive_nil]
    simp
  · intro x hxm hk
    unfold absVals
    rw [List.flatMap_map]
    have h3 : ∀ rows : List Nat, pickVals (alive ((⟨[], rows.length, []⟩ : Frag).addFile (fileOf lg rows.length (pickZ rows Z))).phys
        ((⟨[], rows.length, []⟩ : Frag).addFile (fileOf lg rows.length (pickZ rows Z))).del)
        (((⟨[], rows.length, []⟩ : Frag).addFile (fileOf lg rows.length (pickZ rows Z))).colVals x.1.id) = pickVals rows x.2.vals := by
      intro rows
      have h4 := addFile_colVals_new (lg := lg) (fr := ⟨[], rows.length, []⟩) (hpn rows) (by simp) (pickZ_flat (rows := rows) hxm)
      simp only at h4
      rw [h4]
      have : x.2.kind ≠ .struct := by rw [← (hx x hxm).2]; exact hk
      simp only [Frag.addFile, pickC, if_neg this]
      exact pick_fresh rows _
    simp only [h3]
    rw [pickVals_flatten, cut_flatten, ← List.range_eq_range']
    exact pickVals_range (hlen x hxm (by rw [← (hx x hxm).2]; exact hk))
  · intro i hi
    unfold absVals
    rw [List.flatMap_map]
    have h3 : ∀ rows : List Nat, pickVals (alive ((⟨[], rows.length, []⟩ : Frag).addFile (fileOf lg rows.length (pickZ rows Z))).phys
        ((⟨[], rows.length, []⟩ : Frag).addFile (fileOf lg rows.length (pickZ rows Z))).del)
        (((⟨[], rows.length, []⟩ : Frag).addFile (fileOf lg rows.length (pickZ rows Z))).colVals i) = pickVals rows (List.replicate b.n none) := by
      intro rows
      rw [addFile_colVals_old (by rw [fileOf_ids, pickZ_fst]; exact hi)]
      simp only [Frag.addFile, Frag.colVals, Frag.lookup, List.findSome?_nil, Option.getD_none]
      rw [pickVals_replicate, pickVals_replicate, alive_nil]
      simp
    simp only [h3]
    rw [pickVals_flatten, cut_flatten, ← List.range_eq_range', pickVals_replicate]
    simp

end Verif.Evolve
