import Verif.Evolve.LemmasAccept2
namespace Verif.Evolve

/-! ### Appending rows -/

theorem byName_attr (x : Nat) (b : Tr Col) : byName x (b.map Col.attr) = (colByName x b).map (fun t => (t.1.attr, t.2.map Col.attr)) := by
  rw [colByName_roots, byName_roots, Tr.roots_map, List.find?_map]
  congr 1

theorem fits_root {items : Bool} {t : Tr Col} : ∀ {b : Tr Col}, Fits items t b → ∀ {c}, c ∈ b.roots →
    ∃ e, colByName c.1.name t = some e ∧ e.1.kind = c.1.kind ∧ (items = false → nullOk e.1.nullable c.1.vals = true) ∧ Fits (items || decide (c.1.kind = .list)) e.2 c.2
  | .nil, _, _, hc => by cases hc
  | .cons d k r, h, c, hc => by
    simp only [Tr.roots, List.mem_cons] at hc
    rcases hc with rfl | hc
    · exact h.1
    · exact fits_root h.2 hc

theorem fits_noExtra {items : Bool} {s : Tr Attr} {f : Attr → Col} (hf : ∀ a, (f a).name = a.name) {b : Tr Col} (h : Fits items (s.map f) b) :
    noExtra (b.map Col.attr) s = true := by
  unfold noExtra
  rw [List.all_eq_true]
  intro t ht
  rw [Tr.roots_map] at ht
  obtain ⟨c, hc, rfl⟩ := List.mem_map.1 ht
  obtain ⟨e, h1, _⟩ := fits_root h hc
  rw [colByName_map hf] at h1
  obtain ⟨u, hu, _⟩ := Option.map_eq_some_iff.1 h1
  rw [List.any_eq_true]
  exact ⟨u, (byName_mem hu).1, by simp [(byName_mem hu).2, Col.attr]⟩

theorem fits_compatible {f : Attr → Col} (hf : ∀ a, (f a).name = a.name ∧ (f a).kind = a.kind ∧ (f a).nullable = a.nullable) :
    ∀ {r s : Tr Attr} {items : Bool} {b : Tr Col}, (∀ u ∈ r.roots, u ∈ s.roots) → Distinct Attr.name s → Fits items (s.map f) b → MissingOk (r.map f) b →
    compatible (b.map Col.attr) r = true
  | .nil, _, _, _, _, _, _, _ => rfl
  | .cons a k r, s, items, b, hr, hd, h, hm => by
    simp only [Tr.map, MissingOk] at hm
    unfold compatible
    rw [Bool.and_eq_true]
    refine ⟨?_, fits_compatible hf (fun u hu => hr u (by simp [Tr.roots, hu])) hd h hm.2⟩
    rw [byName_attr]
    rw [(hf a).1] at hm
    rcases hm.1 with ⟨e, h1, h2⟩ | ⟨h1, h2⟩
    · rw [h1]
      simp only [Option.map_some]
      obtain ⟨g1, g2⟩ := colByName_mem h1
      obtain ⟨u, u1, u2, _, u4⟩ := fits_root h g1
      have hak := hr (a, k) (by simp [Tr.roots])
      rw [g2, colByName_map (fun a => (hf a).1), byName_of_mem (distinct_names hd) hak] at u1
      simp only [Option.map_some, Option.some.injEq] at u1
      subst u1
      simp only at u2 u4
      rw [Bool.and_eq_true, Bool.and_eq_true]
      refine ⟨⟨?_, fits_noExtra (fun a => (hf a).1) u4⟩, fits_compatible hf (fun u hu => hu) (distinct_kids hd hak) u4 h2⟩
      rw [decide_eq_true_iff]
      rw [← (hf a).2.1, u2]
      rfl
    · rw [h1]
      simp only [Option.map_none]
      rw [← (hf a).2.2]
      exact h2

theorem compatible_missing {f : Attr → Col} (hf : ∀ a, (f a).name = a.name ∧ (f a).nullable = a.nullable) : ∀ {s : Tr Attr} {b : Tr Col},
    compatible (b.map Col.attr) s = true → MissingOk (s.map f) b
  | .nil, _, _ => trivial
  | .cons a k r, b, h => by
    unfold compatible at h
    rw [Bool.and_eq_true] at h
    refine ⟨?_, compatible_missing hf h.2⟩
    have h1 := h.1
    rw [byName_attr] at h1
    rw [(hf a).1, (hf a).2]
    cases e : colByName a.name b with
    | none =>
      rw [e] at h1
      exact Or.inr ⟨rfl, h1⟩
    | some c =>
      rw [e] at h1
      simp only [Option.map_some, Bool.and_eq_true] at h1
      exact Or.inl ⟨c, rfl, compatible_missing hf h1.2⟩

theorem fits_project {f : Attr → Col} (hf : ∀ a, (f a).name = a.name ∧ (f a).kind = a.kind) : ∀ {b : Tr Col} {s : Tr Attr} {items : Bool},
    Fits items (s.map f) b → ∃ w, projectBySchema s (b.map Col.attr) = some w
  | .nil, _, _, _ => ⟨_, rfl⟩
  | .cons c k r, s, items, h => by
    obtain ⟨⟨e, h1, h2, _, h4⟩, h5⟩ := h
    rw [colByName_map (fun a => (hf a).1)] at h1
    obtain ⟨t, ht, rfl⟩ := Option.map_eq_some_iff.1 h1
    obtain ⟨w1, hw1⟩ := fits_project hf h4
    obtain ⟨w2, hw2⟩ := fits_project hf h5
    have hk : t.1.kind = c.attr.kind := by
      rw [← (hf t.1).2]
      exact h2
    have hn : byName c.attr.name s = some t := ht
    simp only [Tr.map, projectBySchema, hn, hk, if_true, hw1, hw2]
    by_cases hc : c.attr.kind = .struct ∨ c.attr.kind = .list
    · rw [if_pos hc]
      exact ⟨_, rfl⟩
    · rw [if_neg hc]
      exact ⟨_, rfl⟩

theorem fits_zip {f : Attr → Col} (hf : ∀ a, (f a).name = a.name ∧ (f a).kind = a.kind ∧ (f a).nullable = a.nullable) :
    ∀ {Z : Tr (Attr × Col)} {s : Tr Attr} {items : Bool}, Within (Z.map Prod.fst) s → ShapeOk (Z.map Prod.fst) → (∀ x ∈ Z.flat, x.1.name = x.2.name ∧ x.1.kind = x.2.kind) →
    (Fits items (s.map f) (Z.map Prod.snd) ↔ (items = false → ∀ x ∈ strictZ Z, nullOk x.1.nullable x.2.vals = true))
  | .nil, _, _, _, _, _ => by simp [Tr.map, Fits, strictZ]
  | .cons x k r, s, items, hw, hsh, hx => by
    obtain ⟨⟨sk, w1, w2⟩, w3⟩ := hw
    obtain ⟨s1, s2, s3⟩ := hsh
    have h0 := hx x (by simp [Tr.flat])
    have ih1 := fits_zip hf (items := items || decide (x.2.kind = .list)) w2 s2 (fun y hy => hx y (by simp [Tr.flat, hy]))
    have ih2 := fits_zip hf (items := items) w3 s3 (fun y hy => hx y (by simp [Tr.flat, hy]))
    simp only [Tr.map, Fits, strictZ, List.mem_cons, List.mem_append]
    have hc : colByName x.2.name (s.map f) = some (f x.1, sk.map f) := by
      rw [colByName_map (fun a => (hf a).1), ← h0.1, w1]
      rfl
    rw [hc, ih2]
    constructor
    · rintro ⟨⟨e, e1, e2, e3, e4⟩, e5⟩ hit y hy
      cases e1
      simp only at e2 e3 e4
      rw [ih1] at e4
      rcases hy with rfl | hy | hy
      · rw [← (hf y.1).2.2]
        exact e3 hit
      · split at hy
        · rename_i hk
          refine e4 ?_ y hy
          rw [hit, ← h0.2, hk]
          rfl
        · cases hy
      · exact e5 hit y hy
    · intro h
      refine ⟨⟨_, rfl, ?_, ?_, ?_⟩, fun hit y hy => h hit y (Or.inr (Or.inr hy))⟩
      · rw [(hf x.1).2.1]
        exact h0.2
      · intro hit
        simp only
        rw [(hf x.1).2.2]
        exact h hit x (Or.inl rfl)
      · simp only
        rw [ih1]
        intro hit y hy
        rw [Bool.or_eq_false_iff] at hit
        by_cases hk : x.1.kind = .struct
        · exact h hit.1 y (Or.inr (Or.inl (by rw [if_pos hk]; exact hy)))
        · exfalso
          cases hk' : x.1.kind with
          | struct => exact hk hk'
          | list =>
            rw [← h0.2, hk'] at hit
            simp at hit
          | leaf t =>
            simp only [hk'] at s1
            simp only [Tr.map_eq_nil] at s1
            subst s1
            cases hy

theorem append_some {d : Ds} {b : Data} {sizes : List Nat} (hi : Inv d) (hb : DataOk b) (hd : Distinct Col.name b.cols) :
    (append d b sizes).isSome ↔ Fits false d.table.cols b.cols ∧ MissingOk d.table.cols b.cols := by
  have hs := hi.schema
  have hf : ∀ a, (absCol d.frags a).name = a.name ∧ (absCol d.frags a).kind = a.kind ∧ (absCol d.frags a).nullable = a.nullable := fun _ => ⟨rfl, rfl, rfl⟩
  have hmain : ∀ w, projectBySchema d.schema (b.cols.map Col.attr) = some w → ((writeFrags d.legacy w b sizes).isSome ↔ Fits false d.table.cols b.cols) := by
    intro w e
    obtain ⟨Z, h1, h2, hx, hw⟩ := pbs_zip Col.attr hs.shape (colsOk_shape hb.1) e
    subst h1
    obtain ⟨hz1, hz2⟩ := zip_shape hx
    rw [← h2] at hz1 hz2
    have hdist := hz2.2 (distinct_attr hd)
    have hflat := colsOk_flat hb.1
    have := fits_zip (f := absCol d.frags) hf (items := false) hw (hz1.2 (colsOk_shape hb.1)) hx
    unfold Ds.table
    simp only
    conv => rhs; rw [h2]
    rw [this]
    simp only [true_implies]
    refine writeFrags_some h2 hx ?_ hdist (validate_ok (within_nodup hw hs.nodup hdist) (fun i hii => hs.nonneg i (within_ids hw hii)) hdist)
    intro x hxm
    refine hflat _ ?_
    rw [h2, Tr.flat_map]
    exact List.mem_map_of_mem hxm
  unfold append
  simp only
  constructor
  · intro h
    split at h
    · rename_i hc
      rw [Bool.and_eq_true] at hc
      cases e : projectBySchema d.schema (b.cols.map Col.attr) with
      | none => rw [e] at h; cases h
      | some w =>
        rw [e] at h
        simp only [Option.isSome_map] at h
        exact ⟨(hmain w e).1 h, compatible_missing (fun a => ⟨rfl, rfl⟩) hc.2⟩
    · cases h
  · rintro ⟨h1, h2⟩
    obtain ⟨w, e⟩ := fits_project (f := absCol d.frags) (fun _ => ⟨rfl, rfl⟩) h1
    rw [if_pos, e]
    · simp only [Option.isSome_map]
      exact (hmain w e).2 h1
    · rw [Bool.and_eq_true]
      exact ⟨fits_noExtra (f := absCol d.frags) (fun _ => rfl) h1, fits_compatible hf (fun u hu => hu) hs.distinct h1 h2⟩

/-! ### Adding columns -/

theorem restore_some {lg : Bool} {s : Tr Attr} {fr : Frag} (hf : FragOk lg s fr) (hl : alive fr.phys fr.del ≠ []) {nb : Data} (hn : nb.n = (alive fr.phys fr.del).length) :
    restore fr.del nb = some (nb.pick (blanks fr.phys fr.del)) := by
  have h1 := alive_length hf.del.1 hf.del.2
  have h2 : 0 < nb.n := by
    rw [hn]
    exact List.length_pos_iff.2 hl
  unfold restore
  simp only
  have h3 : nb.n + fr.del.length = fr.phys := by omega
  rw [h3, if_pos]
  · rfl
  · rw [Bool.and_eq_true, List.all_eq_true]
    refine ⟨fun i hi => decide_eq_true (hf.del.2 i hi), ?_⟩
    rw [decide_eq_true h2]
    rfl

theorem updateFrag_some {lg : Bool} {s reads : Tr Attr} {Z : Tr (Attr × Col)} {f : Data → Option Data} {fr : Frag} {rb nb : Data} (hf : FragOk lg s fr)
    (hl : alive fr.phys fr.del ≠ []) (hr : readFrag true s reads fr = some rb) (hn : rb.n = (alive fr.phys fr.del).length) (hnb : f rb = some nb)
    (hz : ∀ z ∈ Z.roots, colByName z.1.1.name nb.cols = some (z.1.2, z.2.map Prod.snd)) (hb : nb.cols = Z.map Prod.snd)
    (hlen : ∀ x ∈ Z.flat, (x.2.kind = .struct → x.2.vals = []) ∧ (x.2.kind ≠ .struct → x.2.vals.length = nb.n)) (hv : validate (Z.map Prod.fst) = true) :
    (updateFrag lg s reads (Z.map Prod.fst) f fr).isSome ↔ nb.n = rb.n ∧ ∀ x ∈ strictZ Z, nullOk x.1.nullable x.2.vals = true := by
  unfold updateFrag
  rw [hr]
  simp only [hnb]
  by_cases he : rb.n = nb.n
  · have hnn : nb.n = (alive fr.phys fr.del).length := he ▸ hn
    rw [if_pos he, restore_some hf hl hnn]
    simp only [Option.isSome_map]
    have hw := writeFile_some (lg := lg) (Z := pickZ (blanks fr.phys fr.del) Z) (b := nb.pick (blanks fr.phys fr.del)) (by rw [pickZ_snd, Data.pick, hb]) (pickZ_roots hz)
      (by rw [pickZ_fst]; exact hv)
    rw [pickZ_fst] at hw
    rw [hw, strictZ_pick]
    have h2 : ∀ x ∈ strictZ Z, (nullOk x.1.nullable (pickC (blanks fr.phys fr.del) x.2).vals = true ↔ nullOk x.1.nullable x.2.vals = true) := by
      intro x hxm
      have hx := hlen x (strictZ_flat hxm)
      by_cases hk : x.2.kind = .struct
      · simp [pickC, hk, hx.1 hk, nullOk]
      · simp only [pickC, if_neg hk]
        constructor
        · intro h
          have h3 := pick_nullOk h (n := fr.phys) (by simp [pickVals, blanks]) (rows := alive fr.phys fr.del) (fun i hi => alive_lt hi)
          rw [pick_blanks hf.del.1 ((hx.2 hk).trans hnn)] at h3
          exact h3
        · intro h
          exact pick_nullOk h (hx.2 hk) (blanks_lt hf.del.1 hnn (by rw [hnn]; exact List.length_pos_iff.2 hl))
    simp only [List.mem_map, forall_exists_index, and_imp, he, true_and]
    constructor
    · intro h x hxm
      exact (h2 x hxm).1 (h _ x hxm rfl)
    · rintro h x y hy rfl
      exact (h2 y hy).2 (h y hy)
  · rw [if_neg he]
    simp only [Option.isSome_none, Bool.false_eq_true, false_iff, not_and]
    intro c
    exact absurd c.symm he

theorem pull_some : ∀ {bs : List (List Nat)} {n : Nat}, (pull n bs).isSome ↔ n ≤ bs.flatten.length
  | [], 0 => by simp [pull]
  | b :: bs, 0 => by simp [pull]
  | [], n + 1 => by simp [pull]
  | b :: bs, n + 1 => by
    unfold pull
    rw [List.flatten_cons, List.length_append]
    split
    · simp only [Option.isSome_some, true_iff]
      omega
    · rw [Option.isSome_map, pull_some]
      omega

theorem pull_ne : ∀ {bs : List (List Nat)} {n : Nat} {rows rest}, (∀ r ∈ bs, r ≠ []) → pull n bs = some (rows, rest) → ∀ r ∈ rest, r ≠ []
  | [], 0, rows, rest, hb, h => by
    simp only [pull, Option.some.injEq, Prod.mk.injEq] at h
    obtain ⟨_, rfl⟩ := h
    exact hb
  | b :: bs, 0, rows, rest, hb, h => by
    simp only [pull, Option.some.injEq, Prod.mk.injEq] at h
    obtain ⟨_, rfl⟩ := h
    exact hb
  | [], n + 1, rows, rest, hb, h => by simp [pull] at h
  | b :: bs, n + 1, rows, rest, hb, h => by
    simp only [pull] at h
    split at h
    · rename_i hc
      simp only [Option.some.injEq, Prod.mk.injEq] at h
      obtain ⟨_, rfl⟩ := h
      intro r hr
      rcases List.mem_cons.1 hr with rfl | hr
      · intro c
        have := congrArg List.length c
        simp at this
        omega
      · exact hb r (by simp [hr])
    · cases e : pull (n + 1 - b.length) bs with
      | none => rw [e] at h; cases h
      | some r =>
        rw [e] at h
        simp only [Option.map_some, Option.some.injEq, Prod.mk.injEq] at h
        obtain ⟨_, rfl⟩ := h
        exact pull_ne (fun r hr => hb r (by simp [hr])) (show pull (n + 1 - b.length) bs = some (r.1, r.2) from e)

theorem streamFrags_some {lg : Bool} {s : Tr Attr} {W : Tr (Attr × Col)} {b : Data} (hb : b.cols = W.map Prod.snd)
    (hx : ∀ x ∈ W.flat, x.1.name = x.2.name ∧ x.1.kind = x.2.kind) (hdW : Distinct Attr.name (W.map Prod.fst)) (hv : validate (W.map Prod.fst) = true)
    (hlen : ∀ x ∈ W.flat, (x.2.kind = .struct → x.2.vals = []) ∧ (x.2.kind ≠ .struct → x.2.vals.length = b.n))
    (hnull : ∀ x ∈ strictZ W, nullOk x.1.nullable x.2.vals = true) :
    ∀ {frags : List Frag} {bs : List (List Nat)}, (∀ fr ∈ frags, FragOk lg s fr) → (∀ fr ∈ frags, alive fr.phys fr.del ≠ []) → (∀ i ∈ bs.flatten, i < b.n) →
    (∀ r ∈ bs, r ≠ []) → absN frags ≤ bs.flatten.length →
    ∃ frags' rest, streamFrags lg s (W.map Prod.fst) b frags bs = some (frags', rest) ∧ rest.flatten.length + absN frags = bs.flatten.length ∧ ∀ r ∈ rest, r ≠ []
  | [], bs, _, _, _, hne, _ => ⟨[], bs, rfl, by simp [absN], hne⟩
  | fr :: frags, bs, hf, hl, hlt, hne, hle => by
    have habs : absN (fr :: frags) = (alive fr.phys fr.del).length + absN frags := by simp [absN]
    unfold streamFrags
    have h1 : (pull (alive fr.phys fr.del).length bs).isSome := pull_some.2 (by omega)
    obtain ⟨⟨rows, bs'⟩, e⟩ := Option.isSome_iff_exists.1 h1
    rw [e]
    simp only
    obtain ⟨p1, p2⟩ := pull_ok e
    have hrows : ∀ i ∈ rows, i < b.n := fun i hi => hlt i (by rw [p2]; simp [hi])
    have hfst : (W.map (fun x => (x.1, pickC rows x.2))).map Prod.fst = W.map Prod.fst := by rw [Tr.map_map]
    have hsnd : (W.map (fun x => (x.1, pickC rows x.2))).map Prod.snd = (W.map Prod.snd).map (pickC rows) := by rw [Tr.map_map, Tr.map_map]
    have hcols : (b.pick rows).cols = (W.map Prod.snd).map (pickC rows) := by
      unfold Data.pick pickCols
      simp only
      rw [hb]
      rfl
    have h2 := (updateFrag_some (lg := lg) (reads := .nil) (Z := W.map (fun x => (x.1, pickC rows x.2))) (f := fun _ => some (b.pick rows)) (hf fr (by simp)) (hl fr (by simp))
      (rb := ⟨(alive fr.phys fr.del).length, .nil⟩) rfl rfl (nb := b.pick rows) rfl (by
        intro z hz
        rw [hcols, ← hsnd]
        refine colByName_zip ?_ ?_ hz
        · intro y hy
          rw [Tr.roots_map] at hy
          obtain ⟨u, hu, rfl⟩ := List.mem_map.1 hy
          exact (hx u.1 (Tr.root_mem_flat hu)).1
        · have := distinct_names hdW
          rw [← hfst, Tr.roots_map, List.map_map] at this
          exact this) (by rw [hcols, hsnd]) (by
        intro x hxm
        rw [Tr.flat_map] at hxm
        obtain ⟨y, hy, rfl⟩ := List.mem_map.1 hxm
        simp only [pickC, Data.pick]
        refine ⟨fun hk => by rw [if_pos hk], fun hk => by rw [if_neg hk]; simp [pickVals]⟩) (by rw [hfst]; exact hv)).2 (by
        refine ⟨p1, ?_⟩
        intro x hxm
        rw [strictZ_map] at hxm
        obtain ⟨y, hy, rfl⟩ := List.mem_map.1 hxm
        simp only [pickC]
        by_cases hk : y.2.kind = .struct
        · rw [if_pos hk]
          simp [nullOk]
        · rw [if_neg hk]
          exact pick_nullOk (hnull y hy) ((hlen y (strictZ_flat hy)).2 hk) hrows)
    rw [hfst] at h2
    obtain ⟨fr', e2⟩ := Option.isSome_iff_exists.1 h2
    rw [e2]
    simp only
    have hlen2 : bs.flatten.length = (alive fr.phys fr.del).length + bs'.flatten.length := by rw [p2, List.length_append, p1]
    obtain ⟨frags', rest, e3, e4, e5⟩ := streamFrags_some hb hx hdW hv hlen hnull (frags := frags) (bs := bs') (fun g hg => hf g (by simp [hg])) (fun g hg => hl g (by simp [hg]))
      (fun i hi => hlt i (by rw [p2]; simp only [List.mem_append]; exact Or.inr hi)) (pull_ne hne e) (by omega)
    rw [e3]
    refine ⟨fr' :: frags', rest, rfl, by omega, e5⟩

theorem addStream_some {d : Ds} {b : Data} {sizes : List Nat} (hi : Inv d) (hl : Live d) (hb : DataOk b) (hd : Distinct Col.name b.cols) :
    (addStream d b sizes).isSome ↔ NewNames d.table.cols (b.cols.roots.map (fun c => c.1.name)) ∧ b.n = d.table.n := by
  have hnames : (b.cols.map Col.attr).roots.map (fun a => a.1.name) = b.cols.roots.map (fun c => c.1.name) := by
    rw [Tr.roots_map, List.map_map]
    rfl
  rw [← hnames, ← namesNew_table]
  constructor
  · intro h
    obtain ⟨d', h'⟩ := Option.isSome_iff_exists.1 h
    have h2 := addStream_ok hi hb hd h'
    have h3 := h'
    unfold addStream at h3
    simp only at h3
    split at h3
    case isFalse => cases h3
    rename_i hnew
    refine ⟨hnew, ?_⟩
    have h4 := h2.2
    obtain ⟨c, k, r, hc⟩ : ∃ c k r, b.cols = .cons c k r := by
      cases e : b.cols with
      | nil => exact absurd e hb.2
      | cons c k r => exact ⟨c, k, r, rfl⟩
    -- the rows of the stream are those of the table
    cases e : projectBySchema (addedSchema d (b.cols.map Col.attr)) (b.cols.map Col.attr) with
    | none => rw [e] at h3; cases h3
    | some w =>
      rw [e] at h3
      simp only at h3
      have hpull : ∀ {frags : List Frag} {bs : List (List Nat)} {r}, streamFrags d.legacy d.schema w b frags bs = some r → bs.flatten.length = absN frags + r.2.flatten.length := by
        intro frags
        induction frags with
        | nil =>
          intro bs r hr
          simp only [streamFrags, Option.some.injEq] at hr
          subst hr
          simp [absN]
        | cons fr frags ih =>
          intro bs r hr
          unfold streamFrags at hr
          split at hr
          · cases hr
          split at hr
          · cases hr
          · rename_i rows bs' ep _ fr1 e1
            cases e2 : streamFrags d.legacy d.schema w b frags bs' with
            | none => rw [e2] at hr; cases hr
            | some r' =>
              rw [e2] at hr
              simp only [Option.map_some, Option.some.injEq] at hr
              subst hr
              obtain ⟨p1, p2⟩ := pull_ok ep
              have h5 := ih e2
              have habs : absN (fr :: frags) = (alive fr.phys fr.del).length + absN frags := by simp [absN]
              rw [p2, List.length_append, p1, h5, habs]
              simp only
              omega
      cases e2 : streamFrags d.legacy d.schema w b d.frags (cut sizes 0 b.n) with
      | none => rw [e2] at h3; cases h3
      | some r =>
        obtain ⟨frags, rest⟩ := r
        rw [e2] at h3
        cases rest with
        | cons x y => cases h3
        | nil =>
          have h5 := hpull e2
          rw [cut_flatten] at h5
          simp only [List.length_range', List.flatten_nil, List.length_nil, Nat.add_zero] at h5
          exact h5
  · rintro ⟨hnew, hn⟩
    unfold addStream
    simp only
    rw [if_pos hnew]
    have hdist := distinct_attr hd
    have hshape := colsOk_shape hb.1
    have hflat := colsOk_flat hb.1
    obtain ⟨W, w1, w2, w3, w4, w5⟩ := addedSchema_zip Col.attr hi hnew hdist
    rw [w2] at hdist hshape hnew
    obtain ⟨hsch, hfresh, hdW, hnames'⟩ := added_inv hi w3 w4 w5 hshape hdist hnew
    have hx : ∀ x ∈ W.flat, x.1.name = (Col.attr x.2).name ∧ x.1.kind = (Col.attr x.2).kind := by
      intro x hm
      have := w3 x hm
      constructor
      · rw [this]
      · rw [this]
    rw [w1]
    rw [show projectBySchema (d.schema.append (W.map Prod.fst)) (b.cols.map Col.attr) = _ from by rw [w2], pbs_self Col.attr hx hdW (fun u hu => by rw [byName_append_new hnames' hu]; exact byName_of_mem (distinct_names hdW) hu)]
    simp only
    have hsnd : ∀ x ∈ W.flat, x.2 ∈ b.cols.flat := by
      intro x hx
      rw [w2, Tr.flat_map]
      exact List.mem_map_of_mem hx
    have hok := hb.1
    rw [w2] at hok
    have hcutlen : (cut sizes 0 b.n).flatten = List.range b.n := by rw [cut_flatten, ← List.range_eq_range']
    obtain ⟨frags', rest, e1, e2, e3⟩ := streamFrags_some (lg := d.legacy) (s := d.schema) w2 (fun x hm => hx x hm) hdW
      (validate_ok w5 (fun i hii => by have := w4 i hii; have := maxFieldId_ge d; omega) hdW) (fun x hm => hflat _ (hsnd x hm))
      (colsOk_nulls hok (fun x hm => ⟨(hx x hm).2, by rw [w3 x hm]; rfl⟩)) hi.frags hl (bs := cut sizes 0 b.n)
      (by rw [hcutlen]; intro i hi; exact List.mem_range.1 hi) (fun r hr => cut_ne _ _ _ r hr) (by rw [hcutlen, List.length_range]; exact Nat.le_of_eq hn.symm)
    rw [e1]
    have hrest : rest = [] := by
      rw [hcutlen, List.length_range] at e2
      have h0 : rest.flatten.length = 0 := by
        have : b.n = absN d.frags := hn
        omega
      cases rest with
      | nil => rfl
      | cons r rs =>
        exfalso
        have h1 := e3 r (by simp)
        simp only [List.flatten_cons, List.length_append] at h0
        exact h1 (List.eq_nil_of_length_eq_zero (by omega))
    subst hrest
    rfl

end Verif.Evolve
