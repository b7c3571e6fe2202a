import Verif.Evolve.LemmasAbs
namespace Verif.Evolve

/-! ### A schema and a batch of the same shape -/

/-- The pairs that are not inside a list. -/
def strictZ {β : Type} : Tr (Attr × β) → List (Attr × β)
  | .nil => []
  | .cons x k r => x :: ((if x.1.kind = .struct then strictZ k else []) ++ strictZ r)

theorem strictZ_map {β γ : Type} (f : β → γ) : ∀ Z : Tr (Attr × β), strictZ (Z.map (fun x => (x.1, f x.2))) = (strictZ Z).map (fun x => (x.1, f x.2))
  | .nil => rfl
  | .cons x k r => by
    simp only [Tr.map, strictZ, strictZ_map f k, strictZ_map f r, List.map_cons, List.map_append]
    congr 2
    split <;> rfl

theorem strictZ_fst {β : Type} : ∀ Z : Tr (Attr × β), (strictZ Z).map Prod.fst = strict (Z.map Prod.fst)
  | .nil => rfl
  | .cons x k r => by
    simp only [Tr.map, strictZ, strict, ← strictZ_fst k, ← strictZ_fst r, List.map_cons, List.map_append]
    congr 2
    split <;> rfl

theorem strictZ_flat {β : Type} : ∀ {Z : Tr (Attr × β)} {x : Attr × β}, x ∈ strictZ Z → x ∈ Z.flat
  | .nil, _, h => by cases h
  | .cons y k r, x, h => by
    simp only [strictZ, List.mem_cons, List.mem_append] at h
    simp only [Tr.flat, List.mem_cons, List.mem_append]
    rcases h with h | h | h
    · exact Or.inl h
    · split at h
      · exact Or.inr (Or.inl (strictZ_flat h))
      · cases h
    · exact Or.inr (Or.inr (strictZ_flat h))

theorem storeKids_zip : ∀ Z : Tr (Attr × Col), storeKids (Z.map Prod.fst) (Z.map Prod.snd) = Z.flat.map (fun x => (x.1.id, x.2.vals))
  | .nil => rfl
  | .cons x k r => by simp [Tr.map, storeKids, Tr.flat, storeKids_zip k, storeKids_zip r]

theorem storeTop_zip : ∀ {Z : Tr (Attr × Col)} {B : Tr Col}, (∀ z ∈ Z.roots, colByName z.1.1.name B = some (z.1.2, z.2.map Prod.snd)) →
    storeTop (Z.map Prod.fst) B = some (Z.flat.map (fun x => (x.1.id, x.2.vals)))
  | .nil, _, _ => rfl
  | .cons x k r, B, h => by
    have h0 := h (x, k) (by simp [Tr.roots])
    simp only at h0
    simp only [Tr.map, storeTop]
    rw [h0, storeTop_zip (fun z hz => h z (by simp [Tr.roots, hz]))]
    simp [storeKids_zip, Tr.flat]

theorem verifyNulls_zip : ∀ {Z : Tr (Attr × Col)}, verifyNulls (Z.map Prod.fst) (Z.map Prod.snd) = true ↔
    ∀ x ∈ strictZ Z, nullOk x.1.nullable x.2.vals = true
  | .nil => by simp [Tr.map, verifyNulls, strictZ]
  | .cons x k r => by
    simp only [Tr.map, verifyNulls, strictZ, Bool.and_eq_true, verifyNulls_zip (Z := r), List.mem_cons, List.mem_append]
    constructor
    · rintro ⟨⟨h1, h2⟩, h3⟩ y (rfl | h | h)
      · exact h1
      · by_cases hk : x.1.kind = .struct
        · rw [if_pos hk] at h h2
          exact verifyNulls_zip.1 h2 y h
        · rw [if_neg hk] at h
          cases h
      · exact h3 y h
    · intro h
      refine ⟨⟨h x (Or.inl rfl), ?_⟩, fun y hy => h y (Or.inr (Or.inr hy))⟩
      by_cases hk : x.1.kind = .struct
      · rw [if_pos hk]
        exact verifyNulls_zip.2 (fun y hy => h y (Or.inr (Or.inl (by rw [if_pos hk]; exact hy))))
      · rw [if_neg hk]

/-- Names found by the one side are found by the other. -/
theorem colByName_zip {Z : Tr (Attr × Col)} (hn : ∀ z ∈ Z.roots, z.1.1.name = z.1.2.name)
    (hd : (Z.roots.map (fun z => z.1.1.name)).Nodup) {z : (Attr × Col) × Tr (Attr × Col)} (hz : z ∈ Z.roots) :
    colByName z.1.1.name (Z.map Prod.snd) = some (z.1.2, z.2.map Prod.snd) := by
  rw [colByName_roots, Tr.roots_map, List.find?_map]
  have : Z.roots.find? ((fun t : Col × Tr Col => t.1.name == z.1.1.name) ∘ fun x => (x.1.2, x.2.map Prod.snd)) = some z := by
    have h2 := find_name (fun u : (Attr × Col) × Tr (Attr × Col) => u.1.1.name) hd hz
    rw [← h2]
    have : ∀ (l : List ((Attr × Col) × Tr (Attr × Col))), (∀ u ∈ l, u.1.1.name = u.1.2.name) →
        l.find? ((fun t : Col × Tr Col => t.1.name == z.1.1.name) ∘ fun x => (x.1.2, x.2.map Prod.snd)) = l.find? (fun u => u.1.1.name == z.1.1.name) := by
      intro l
      induction l with
      | nil => intro _; rfl
      | cons u l ih =>
        intro h
        rw [List.find?_cons, List.find?_cons, ih (fun v hv => h v (by simp [hv]))]
        simp only [Function.comp]
        rw [h u (by simp)]
    exact this _ hn
  rw [this]
  rfl

/-! ### A new data file -/

def fileOf (lg : Bool) (n : Nat) (Z : Tr (Attr × Col)) : File := ⟨lg, n, Z.flat.map (fun x => (x.1.id, x.2.vals))⟩

theorem fileOf_ids (lg : Bool) (n : Nat) (Z : Tr (Attr × Col)) : (fileOf lg n Z).ids = ids (Z.map Prod.fst) := by
  simp [fileOf, File.ids, ids, Tr.flat_map]

theorem find_key {α : Type} (key : α → Int) : ∀ {l : List α}, (l.map key).Nodup → ∀ {t : α}, t ∈ l → l.find? (fun u => key u == key t) = some t
  | [], _, _, h => by cases h
  | u :: l, hn, t, h => by
    rw [List.map_cons, List.nodup_cons] at hn
    rw [List.find?_cons]
    rcases List.mem_cons.1 h with rfl | h
    · simp
    · have : (key u == key t) = false := by
        rw [Bool.eq_false_iff]
        intro c
        rw [beq_iff_eq] at c
        exact hn.1 (c ▸ List.mem_map_of_mem h)
      rw [this]
      exact find_key key hn.2 h

theorem fileOf_lookup {lg : Bool} {n : Nat} {Z : Tr (Attr × Col)} (h : (ids (Z.map Prod.fst)).Nodup) {x : Attr × Col} (hx : x ∈ Z.flat) :
    (fileOf lg n Z).lookup x.1.id = some x.2.vals := by
  unfold File.lookup fileOf
  simp only
  rw [List.find?_map]
  have h2 : ((Z.flat).map (fun x => x.1.id)).Nodup := by
    simpa [ids, Tr.flat_map, Function.comp_def] using h
  have h3 := find_key (fun u : Attr × Col => u.1.id) h2 hx
  rw [show (((fun c : Int × List Cell => c.1 == x.1.id) ∘ fun x : Attr × Col => (x.1.id, x.2.vals))) = (fun u : Attr × Col => u.1.id == x.1.id) from rfl]
  rw [h3]
  rfl

def Frag.addFile (fr : Frag) (f : File) : Frag := { fr with files := fr.files ++ [f] }

theorem addFile_lookup_old {fr : Frag} {f : File} {i : Int} (h : i ∉ f.ids) : (fr.addFile f).lookup i = fr.lookup i := by
  unfold Frag.lookup Frag.addFile
  simp only [List.findSome?_append]
  cases fr.files.findSome? (fun f => f.lookup i) with
  | some v => rfl
  | none => simp [File.lookup_none h]

theorem addFile_lookup_new {fr : Frag} {f : File} {i : Int} (h : i ∉ fr.files.flatMap File.ids) : (fr.addFile f).lookup i = f.lookup i := by
  have := lookup_none h
  unfold Frag.lookup at this
  unfold Frag.lookup Frag.addFile
  simp only [List.findSome?_append]
  rw [this]
  simp

theorem addFile_colVals_old {fr : Frag} {f : File} {i : Int} (h : i ∉ f.ids) : (fr.addFile f).colVals i = fr.colVals i := by
  unfold Frag.colVals
  rw [addFile_lookup_old h]
  rfl

theorem addFile_colVals_new {lg : Bool} {fr : Frag} {Z : Tr (Attr × Col)} (hz : (ids (Z.map Prod.fst)).Nodup)
    (hdis : ∀ i ∈ ids (Z.map Prod.fst), i ∉ fr.files.flatMap File.ids) {x : Attr × Col} (hx : x ∈ Z.flat) :
    (fr.addFile (fileOf lg fr.phys Z)).colVals x.1.id = x.2.vals := by
  unfold Frag.colVals
  have : x.1.id ∈ ids (Z.map Prod.fst) := by
    simp only [ids, Tr.flat_map]
    exact List.mem_map_of_mem (List.mem_map_of_mem hx)
  rw [addFile_lookup_new (hdis _ this), fileOf_lookup hz hx]
  rfl

theorem fragOk_addFile {lg : Bool} {s : Tr Attr} {fr : Frag} {Z : Tr (Attr × Col)}
    (hn : (fr.files.flatMap File.ids).Nodup) (hrows : ∀ f ∈ fr.files, f.rows = fr.phys) (hfmt : ∀ f ∈ fr.files, f.legacy = lg)
    (hdel : fr.del.Nodup ∧ ∀ i ∈ fr.del, i < fr.phys)
    (hz : (ids (Z.map Prod.fst)).Nodup) (hdis : ∀ i ∈ ids (Z.map Prod.fst), i ∉ fr.files.flatMap File.ids)
    (hlen : ∀ x ∈ Z.flat, x.1.kind ≠ .struct → x.2.vals.length = fr.phys)
    (hnull : ∀ x ∈ strictZ Z, nullOk x.1.nullable x.2.vals = true)
    (hroots : ∀ t ∈ s.roots, (∀ i ∈ rootIds t, i ∈ ids (Z.map Prod.fst)) ∨ Stored t fr ∨
      ((∀ f ∈ fr.files, ∀ i ∈ rootIds t, i ∉ f.ids) ∧ (∀ i ∈ rootIds t, i ∉ ids (Z.map Prod.fst)) ∧
        (∀ a ∈ t.1 :: (if t.1.kind = .struct then strict t.2 else []), a.nullable = true) ∧ lg = false))
    (hol : ∀ a ∈ s.flat, a.kind ≠ .struct → ∀ v, fr.lookup a.id = some v → v.length = fr.phys)
    (hon : ∀ a ∈ strict s, a.kind ≠ .struct → ∀ v, fr.lookup a.id = some v → nullOk a.nullable v = true)
    (hsame : ∀ a ∈ s.flat, a.id ∈ ids (Z.map Prod.fst) → ∃ x ∈ Z.flat, x.1 = a)
    (hstrict : ∀ a ∈ strict s, a.id ∈ ids (Z.map Prod.fst) → ∃ x ∈ strictZ Z, x.1 = a) :
    FragOk lg s (fr.addFile (fileOf lg fr.phys Z)) := by
  have hfiles : (fr.addFile (fileOf lg fr.phys Z)).files = fr.files ++ [fileOf lg fr.phys Z] := rfl
  have hphys : (fr.addFile (fileOf lg fr.phys Z)).phys = fr.phys := rfl
  constructor
  · rw [hfiles, List.flatMap_append, List.nodup_append]
    refine ⟨hn, ?_, ?_⟩
    · simpa [fileOf_ids] using hz
    · intro i hi j hj e
      subst e
      simp only [List.flatMap_cons, List.flatMap_nil, List.append_nil, fileOf_ids] at hj
      exact hdis i hj hi
  · intro f hf
    rw [hfiles, List.mem_append, List.mem_singleton] at hf
    rcases hf with hf | rfl
    · exact hrows f hf
    · rfl
  · intro f hf
    rw [hfiles, List.mem_append, List.mem_singleton] at hf
    rcases hf with hf | rfl
    · exact hfmt f hf
    · rfl
  · intro t ht
    rcases hroots t ht with h | ⟨f, hm, h⟩ | ⟨h1, h2, h3, h4⟩
    · refine Or.inl ⟨fileOf lg fr.phys Z, by rw [hfiles]; simp, ?_⟩
      intro i hi
      rw [fileOf_ids]
      exact h i hi
    · exact Or.inl ⟨f, by rw [hfiles]; simp [hm], h⟩
    · refine Or.inr ⟨?_, h3, h4⟩
      intro f hf i hi
      rw [hfiles, List.mem_append, List.mem_singleton] at hf
      rcases hf with hf | rfl
      · exact h1 f hf i hi
      · rw [fileOf_ids]
        exact h2 i hi
  · intro a ha hk v hv
    rw [hphys]
    by_cases hi : a.id ∈ ids (Z.map Prod.fst)
    · obtain ⟨x, hx, rfl⟩ := hsame a ha hi
      rw [addFile_lookup_new (hdis _ hi), fileOf_lookup hz hx] at hv
      cases hv
      exact hlen x hx hk
    · rw [addFile_lookup_old (by rw [fileOf_ids]; exact hi)] at hv
      exact hol a ha hk v hv
  · intro a ha hk v hv
    by_cases hi : a.id ∈ ids (Z.map Prod.fst)
    · obtain ⟨x, hx, rfl⟩ := hstrict a ha hi
      rw [addFile_lookup_new (hdis _ hi), fileOf_lookup hz (strictZ_flat hx)] at hv
      cases hv
      exact hnull x hx
    · rw [addFile_lookup_old (by rw [fileOf_ids]; exact hi)] at hv
      exact hon a ha hk v hv
  · exact hdel

/-! ### Fields matched by name -/

/-- `w` is made of fields of `s`, at each level found by name. -/
def Within : Tr Attr → Tr Attr → Prop
  | .nil, _ => True
  | .cons a k r, s => (∃ sk, byName a.name s = some (a, sk) ∧ Within k sk) ∧ Within r s

theorem within_root : ∀ {w s : Tr Attr}, Within w s → ∀ {u}, u ∈ w.roots → ∃ sk, byName u.1.name s = some (u.1, sk) ∧ Within u.2 sk
  | .nil, _, _, _, hu => by cases hu
  | .cons a k r, s, h, u, hu => by
    simp only [Tr.roots, List.mem_cons] at hu
    rcases hu with rfl | hu
    · exact h.1
    · exact within_root h.2 hu

theorem within_flat : ∀ {w s : Tr Attr}, Within w s → ∀ {a}, a ∈ w.flat → a ∈ s.flat
  | .nil, _, _, _, h => by cases h
  | .cons a k r, s, ⟨⟨sk, h1, h2⟩, h3⟩, b, hb => by
    simp only [Tr.flat, List.mem_cons, List.mem_append] at hb
    have hm := (byName_mem h1).1
    rcases hb with rfl | hb | hb
    · exact Tr.root_mem_flat hm
    · exact Tr.kid_mem_flat hm (within_flat h2 hb)
    · exact within_flat h3 hb

theorem within_strict : ∀ {w s : Tr Attr}, Within w s → ∀ {a}, a ∈ strict w → a ∈ strict s
  | .nil, _, _, _, h => by cases h
  | .cons a k r, s, ⟨⟨sk, h1, h2⟩, h3⟩, b, hb => by
    simp only [strict, List.mem_cons, List.mem_append] at hb
    have hm := (byName_mem h1).1
    rcases hb with rfl | hb | hb
    · exact mem_strict_root.2 ⟨_, hm, Or.inl rfl⟩
    · by_cases hk : a.kind = .struct
      · rw [if_pos hk] at hb
        exact mem_strict_root.2 ⟨_, hm, Or.inr ⟨hk, within_strict h2 hb⟩⟩
      · rw [if_neg hk] at hb; cases hb
    · exact within_strict h3 hb

theorem within_ids {w s : Tr Attr} (h : Within w s) {i : Int} (hi : i ∈ ids w) : i ∈ ids s := by
  simp only [ids, List.mem_map] at hi ⊢
  obtain ⟨a, ha, rfl⟩ := hi
  exact ⟨a, within_flat h ha, rfl⟩

theorem kids_nodup : ∀ {s : Tr Attr}, (ids s).Nodup → ∀ {t}, t ∈ s.roots → (rootIds t).Nodup
  | .nil, _, _, h => by cases h
  | .cons a k r, hn, t, h => by
    rw [ids_cons, ← List.cons_append, List.nodup_append] at hn
    simp only [Tr.roots, List.mem_cons] at h
    rcases h with rfl | h
    · exact hn.1
    · exact kids_nodup hn.2.1 h

theorem within_nodup : ∀ {w s : Tr Attr}, Within w s → (ids s).Nodup → Distinct Attr.name w → (ids w).Nodup
  | .nil, _, _, _, _ => List.nodup_nil
  | .cons a k r, s, ⟨⟨sk, h1, h2⟩, h3⟩, hn, hd => by
    have hm := (byName_mem h1).1
    have hr := kids_nodup hn hm
    simp only [rootIds, List.nodup_cons] at hr
    rw [ids_cons, List.nodup_cons, List.nodup_append]
    have hsep : ∀ i ∈ ids r, i ∉ rootIds (a, sk) := by
      intro i hi c
      obtain ⟨u, hu, hiu⟩ := mem_ids_root.1 hi
      obtain ⟨uk, h4, h5⟩ := within_root h3 hu
      have h6 : i ∈ rootIds (u.1, uk) := by
        simp only [rootIds, List.mem_cons] at hiu ⊢
        rcases hiu with e | hiu
        · exact Or.inl e
        · exact Or.inr (within_ids h5 hiu)
      have := root_of_id hn hm (byName_mem h4).1 c h6
      have h7 := hd.1 u hu
      rw [← (Prod.mk.inj this).1] at h7
      exact h7 rfl
    refine ⟨?_, within_nodup h2 hr.2 hd.2.1, within_nodup h3 hn hd.2.2, ?_⟩
    · intro c
      rcases List.mem_append.1 c with c | c
      · exact hr.1 (within_ids h2 c)
      · exact hsep _ c (by simp [rootIds])
    · intro i hi j hj e
      subst e
      exact hsep i hj (by simp [rootIds, within_ids h2 hi])

theorem shape_leaf : ∀ {s : Tr Attr}, ShapeOk s → ∀ {t}, t ∈ s.roots → ∀ {n}, t.1.kind = .leaf n → t.2 = .nil
  | .nil, _, _, ht, _, _ => by cases ht
  | .cons a k r, h, t, ht, n, hk => by
    simp only [Tr.roots, List.mem_cons] at ht
    rcases ht with rfl | ht
    · have := h.1
      simp only at hk
      rw [hk] at this
      exact this
    · exact shape_leaf h.2.2 ht hk

/-- `projectBySchema` takes fields of the schema in the order of the data. -/
theorem pbs_zip {β : Type} (g : β → Attr) : ∀ {D : Tr β} {s w : Tr Attr}, ShapeOk s → ShapeOk (D.map g) → projectBySchema s (D.map g) = some w →
    ∃ Z : Tr (Attr × β), w = Z.map Prod.fst ∧ D = Z.map Prod.snd ∧ (∀ x ∈ Z.flat, x.1.name = (g x.2).name ∧ x.1.kind = (g x.2).kind) ∧ Within w s
  | .nil, s, w, _, _, h => by
    simp only [Tr.map, projectBySchema, Option.some.injEq] at h
    subst h
    exact ⟨.nil, rfl, rfl, by simp [Tr.flat], trivial⟩
  | .cons b kd rd, s, w, hs, hD, h => by
    simp only [Tr.map] at hD
    simp only [Tr.map, projectBySchema] at h
    cases e : byName (g b).name s with
    | none => rw [e] at h; cases h
    | some t =>
      obtain ⟨a, k⟩ := t
      rw [e] at h
      simp only at h
      have hm := byName_mem e
      split at h
      case isFalse => cases h
      rename_i hk
      have hkids : ∃ k', (if (g b).kind = .struct ∨ (g b).kind = .list then projectBySchema k (kd.map g) else some k) = some k' := by
        cases e2 : (if (g b).kind = .struct ∨ (g b).kind = .list then projectBySchema k (kd.map g) else some k) with
        | none => rw [e2] at h; cases h
        | some k' => exact ⟨k', rfl⟩
      obtain ⟨k', hk'⟩ := hkids
      rw [hk'] at h
      cases e3 : projectBySchema s (rd.map g) with
      | none => rw [e3] at h; cases h
      | some r' =>
        rw [e3] at h
        simp only [Option.some.injEq] at h
        subst h
        obtain ⟨Zr, hr1, hr2, hr3, hr4⟩ := pbs_zip g hs hD.2.2 e3
        have : ∃ Zk : Tr (Attr × β), k' = Zk.map Prod.fst ∧ kd = Zk.map Prod.snd ∧ (∀ x ∈ Zk.flat, x.1.name = (g x.2).name ∧ x.1.kind = (g x.2).kind) ∧
            Within k' k := by
          split at hk'
          · exact pbs_zip g (shape_kids hs hm.1) hD.2.1 hk'
          · rename_i hc
            simp only [Option.some.injEq] at hk'
            subst hk'
            cases hg : (g b).kind with
            | struct => exact absurd (Or.inl hg) hc
            | list => exact absurd (Or.inr hg) hc
            | leaf n =>
              have h1 := shape_leaf hs hm.1 (hk.trans hg)
              simp only at h1
              subst h1
              have h2 := hD.1
              rw [hg] at h2
              simp only at h2
              rw [Tr.map_eq_nil] at h2
              subst h2
              exact ⟨.nil, rfl, rfl, by simp [Tr.flat], trivial⟩
        obtain ⟨Zk, hk1, hk2, hk3, hk4⟩ := this
        refine ⟨.cons (a, b) Zk Zr, by simp [Tr.map, hk1, hr1], by simp only [Tr.map]; rw [← hk2, ← hr2], ?_, ⟨⟨k, ?_, hk4⟩, hr4⟩⟩
        · intro x hx
          simp only [Tr.flat, List.mem_cons, List.mem_append] at hx
          rcases hx with rfl | hx | hx
          · exact ⟨hm.2, hk⟩
          · exact hk3 x hx
          · exact hr3 x hx
        · rw [hm.2]; exact e

end Verif.Evolve
