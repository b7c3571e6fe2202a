import Verif.Evolve.LemmasDelete
namespace Verif.Evolve

/-! ### Projection by paths -/

/-- There is a field at the path; the empty path is everywhere. -/
def hasAt : List Nat → Tr Attr → Bool
  | [], _ => true
  | x :: p, s =>
    match byName x s with
    | none => false
    | some t => hasAt p t.2

theorem fieldAt_hasAt : ∀ (x : Nat) (p : List Nat) (s : Tr Attr), (fieldAt (x :: p) s).isSome = hasAt (x :: p) s
  | x, [], s => by
    unfold fieldAt hasAt
    cases byName x s <;> rfl
  | x, y :: p, s => by
    unfold fieldAt hasAt
    cases h : byName x s with
    | none => rfl
    | some t =>
      obtain ⟨a, k⟩ := t
      exact fieldAt_hasAt y p k

theorem sub_byName {p s : Tr Attr} (h : Sub p s) {x : Nat} {t : Attr × Tr Attr} (ht : byName x p = some t) :
    ∃ sk, byName x s = some (t.1, sk) ∧ (if t.1.kind = .struct then t.2 ≠ .nil ∧ Sub t.2 sk else t.2 = sk) := by
  obtain ⟨h1, h2⟩ := byName_mem ht
  have := sub_root h h1
  rw [h2] at this
  exact this

theorem colAt_sub {f : Attr → Col} (hf : ∀ a, (f a).name = a.name) : ∀ (q : List Nat) {p s : Tr Attr}, Sub p s →
    colAt q (p.map f) = if hasAt q p then colAt q (s.map f) else none
  | [], p, s, _ => by simp [colAt]
  | [x], p, s, h => by
    unfold colAt hasAt
    rw [colByName_map hf, colByName_map hf]
    cases e : byName x p with
    | none => rfl
    | some t =>
      obtain ⟨sk, h1, _⟩ := sub_byName h e
      rw [h1]
      simp [hasAt]
  | x :: y :: q, p, s, h => by
    unfold colAt hasAt
    rw [colByName_map hf, colByName_map hf]
    cases e : byName x p with
    | none => rfl
    | some t =>
      obtain ⟨sk, h1, h2⟩ := sub_byName h e
      rw [h1]
      simp only [Option.map_some]
      split at h2
      · exact colAt_sub hf (y :: q) h2.2
      · subst h2
        split
        · rfl
        · rename_i hc
          -- nothing is found where there is nothing
          have : ∀ (q : List Nat) (x : Nat) (s : Tr Attr), hasAt (x :: q) s = false → colAt (x :: q) (s.map f) = none := by
            intro q
            induction q with
            | nil =>
              intro x s h
              unfold colAt
              rw [colByName_map hf]
              unfold hasAt at h
              cases e : byName x s with
              | none => rfl
              | some t => rw [e] at h; simp [hasAt] at h
            | cons z q ih =>
              intro x s h
              unfold colAt
              rw [colByName_map hf]
              unfold hasAt at h
              cases e : byName x s with
              | none => rfl
              | some t =>
                rw [e] at h
                simp only [Option.map_some]
                exact ih z t.2 h
          exact this q y t.2 (by simpa using hc)

theorem updFirst_none {p : Attr → Bool} {f : Attr → Tr Attr → Option (Tr Attr)} : ∀ {s : Tr Attr}, (∀ t ∈ s.roots, p t.1 = false) → updFirst p f s = none
  | .nil, _ => rfl
  | .cons a k r, h => by
    unfold updFirst
    have h0 := h (a, k) (by simp [Tr.roots])
    simp only at h0
    rw [h0, updFirst_none (fun t ht => h t (by simp [Tr.roots, ht]))]
    rfl

/-- The children of the first field with the name are replaced. -/
theorem updFirst_some {x : Nat} {f : Attr → Tr Attr → Option (Tr Attr)} : ∀ {s : Tr Attr} {t : Attr × Tr Attr} {k' : Tr Attr}, byName x s = some t →
    f t.1 t.2 = some k' → (s.roots.map (fun t => t.1.name)).Nodup →
    ∃ s', updFirst (fun a => a.name == x) f s = some (some s') ∧ s'.roots = s.roots.map (fun u => if u.1.name = x then (u.1, k') else u)
  | .nil, t, _, h, _, _ => by simp [byName, Tr.find?] at h
  | .cons a k r, t, k', h, hf, hd => by
    simp only [Tr.roots, List.map_cons, List.nodup_cons, List.mem_map, not_exists, not_and] at hd
    unfold updFirst
    unfold byName Tr.find? at h
    by_cases hx : a.name = x
    · simp only [hx, beq_self_eq_true, if_true, Option.some.injEq] at h
      subst h
      simp only at hf
      simp only [hx, beq_self_eq_true, if_true, hf, Option.map_some]
      refine ⟨_, rfl, ?_⟩
      simp only [Tr.roots, List.map_cons, hx, if_true, List.cons.injEq, true_and]
      have hmap : r.roots.map (fun u => if u.1.name = x then (u.1, k') else u) = r.roots.map id := by
        apply List.map_congr_left
        intro u hu
        rw [if_neg (by rw [← hx]; exact hd.1 u hu)]
        rfl
      rw [hmap, List.map_id]
    · have hb : (a.name == x) = false := by simpa using hx
      simp only [hb, Bool.false_eq_true, if_false] at h ⊢
      obtain ⟨s', h1, h2⟩ := updFirst_some (f := f) h hf hd.2
      rw [h1]
      refine ⟨_, rfl, ?_⟩
      simp only [Tr.roots, List.map_cons, if_neg hx, h2]

theorem tr_ext {s t : Tr Attr} (h : s.roots = t.roots) : s = t := Tr.roots_inj h

/-- Merging what is there already changes nothing. -/
theorem mergeKids_self : ∀ {o : Tr Attr} {pos : Bool} {K : Tr Attr}, ShapeOk o → Distinct Attr.name o →
    (if pos then (∃ d l, o = .cons d l .nil) ∧ K = o else (∀ u ∈ o.roots, u ∈ K.roots) ∧ (K.roots.map (fun t => t.1.name)).Nodup) → mergeKids pos K o = some K
  | .nil, pos, K, _, _, _ => by unfold mergeKids; rfl
  | .cons b bk rest, pos, K, hs, hd, h => by
    -- the part below
    have hf : mergeField (fun pos => mergeKids pos bk bk) b.kind b.kind bk = some bk := by
      have h1 := hs.1
      unfold mergeField
      cases hk : b.kind with
      | leaf n => simp
      | struct =>
        simp only
        exact mergeKids_self hs.2.1 hd.2.1 ⟨fun u hu => hu, distinct_names hd.2.1⟩
      | list =>
        simp only [hk] at h1 ⊢
        exact mergeKids_self (pos := true) hs.2.1 hd.2.1 ⟨h1, rfl⟩
    unfold mergeKids
    cases pos with
    | true =>
      simp only [if_true] at h
      obtain ⟨⟨d, l, e⟩, rfl⟩ := h
      simp only [Tr.cons.injEq] at e
      obtain ⟨_, _, rfl⟩ := e
      simp only [updFirst, Bool.true_or, if_true]
      rw [hf]
      rfl
    | false =>
      simp only [Bool.false_eq_true, if_false] at h
      have hm := h.1 (b, bk) (by simp [Tr.roots])
      have hb := byName_of_mem h.2 hm
      simp only at hb
      simp only [Bool.false_or, Bool.false_eq_true, if_false]
      obtain ⟨s', h1, h2⟩ := updFirst_some (f := fun (a : Attr) (ak : Tr Attr) => mergeField (fun pos => mergeKids pos ak bk) a.kind b.kind ak) hb hf h.2
      have : s' = K := by
        apply Tr.roots_inj
        rw [h2]
        have hmap : K.roots.map (fun u => if u.1.name = b.name then (u.1, bk) else u) = K.roots.map id := by
          apply List.map_congr_left
          intro u hu
          split
          · rename_i e
            have h3 := byName_of_mem h.2 hu
            rw [e, hb] at h3
            cases h3
            rfl
          · rfl
        rw [hmap, List.map_id]
      subst this
      rw [h1]
      exact mergeKids_self hs.2.2 hd.2.2 ⟨fun u hu => h.1 u (by simp [Tr.roots, hu]), h.2⟩

theorem hasAt_congr {s t : Tr Attr} (h : ∀ x, byName x s = byName x t) (q : List Nat) : hasAt q s = hasAt q t := by
  cases q with
  | nil => rfl
  | cons x q =>
    unfold hasAt
    rw [h x]

theorem byName_updated {s s' : Tr Attr} {x : Nat} {k' : Tr Attr} (h : s'.roots = s.roots.map (fun u => if u.1.name = x then (u.1, k') else u)) (y : Nat) :
    byName y s' = if y = x then (byName y s).map (fun t => (t.1, k')) else byName y s := by
  rw [byName_roots, byName_roots, h, List.find?_map]
  have hp : ((fun t : Attr × Tr Attr => t.1.name == y) ∘ fun u => if u.1.name = x then (u.1, k') else u) = fun t => t.1.name == y := by
    funext u
    simp only [Function.comp]
    split <;> rfl
  rw [hp]
  cases e : s.roots.find? (fun t => t.1.name == y) with
  | none => simp
  | some t =>
    have h1 := List.find?_some e
    simp only [beq_iff_eq] at h1
    simp only [Option.map_some, h1]
    split <;> rfl

theorem sub_updated {s s' S : Tr Attr} {x : Nat} {k' : Tr Attr} (h : s'.roots = s.roots.map (fun u => if u.1.name = x then (u.1, k') else u))
    (hs : Sub s S) {a : Attr} {sk : Tr Attr} (hx : byName x S = some (a, sk)) (hk : a.kind = .struct) (hk' : k' ≠ .nil ∧ Sub k' sk) : Sub s' S := by
  apply sub_of
  intro t ht
  rw [h] at ht
  obtain ⟨u, hu, e⟩ := List.mem_map.1 ht
  have h1 := sub_root hs hu
  split at e
  · rename_i hn
    subst e
    simp only
    obtain ⟨sk', h2, h3⟩ := h1
    rw [hn, hx] at h2
    cases h2
    refine ⟨sk, by rw [hn]; exact hx, ?_⟩
    rw [if_pos hk]
    exact hk'
  · subst e
    exact h1

theorem distinct_updated {s s' : Tr Attr} {x : Nat} {k' : Tr Attr} (h : s'.roots = s.roots.map (fun u => if u.1.name = x then (u.1, k') else u))
    (hs : Distinct Attr.name s) (hk : Distinct Attr.name k') : Distinct Attr.name s' := by
  apply distinct_of
  · rw [h, List.map_map]
    have : ((fun t : Attr × Tr Attr => t.1.name) ∘ fun u => if u.1.name = x then (u.1, k') else u) = fun t => t.1.name := by
      funext u
      simp only [Function.comp]
      split <;> rfl
    rw [this]
    exact distinct_names hs
  · intro t ht
    rw [h] at ht
    obtain ⟨u, hu, e⟩ := List.mem_map.1 ht
    split at e
    · subst e; exact hk
    · subst e; exact distinct_kids hs hu

theorem byName_append (x : Nat) (s t : Tr Attr) : byName x (s.append t) = (byName x s).or (byName x t) := by
  rw [byName_roots, byName_roots, byName_roots, Tr.roots_append, List.find?_append]

/-- Merging two projections of a schema. -/
theorem mergeKids_sub : ∀ {o acc S : Tr Attr}, Sub acc S → Sub o S → Distinct Attr.name acc → Distinct Attr.name o → Distinct Attr.name S → ShapeOk S →
    ∃ m, mergeKids false acc o = some m ∧ Sub m S ∧ Distinct Attr.name m ∧ (∀ q, hasAt q m = (hasAt q acc || hasAt q o)) ∧ (m = .nil → acc = .nil ∧ o = .nil)
  | .nil, acc, S, ha, _, hda, _, _, _ => by
    refine ⟨acc, ?_, ha, hda, ?_, fun h => ⟨h, rfl⟩⟩
    · unfold mergeKids; rfl
    · intro q
      cases q with
      | nil => rfl
      | cons x q => simp [hasAt, byName, Tr.find?]
  | .cons b bk rest, acc, S, ha, ho, hda, hdo, hdS, hsS => by
    obtain ⟨⟨sk, hb, hbk⟩, hor⟩ := ho
    have hmS := (byName_mem hb).1
    have hdn := distinct_names hda
    have hbyo : ∀ x, byName x (.cons b bk rest) = if x = b.name then some (b, bk) else byName x rest := by
      intro x
      show (if (b.name == x) = true then some (b, bk) else byName x rest) = _
      by_cases h : x = b.name
      · simp [h]
      · have : (b.name == x) = false := by simp; exact fun e => h e.symm
        simp [h, this]
    have hrestb : byName b.name rest = none := byName_none hdo.1
    unfold mergeKids
    simp only [Bool.false_or, Bool.false_eq_true, if_false]
    cases e : byName b.name acc with
    | none =>
      rw [updFirst_none (by
        intro t ht
        rw [Bool.eq_false_iff]
        intro c
        rw [beq_iff_eq] at c
        have := byName_of_mem hdn ht
        rw [c, e] at this
        cases this)]
      simp only
      obtain ⟨m, h1, h2, h3, h4, h5⟩ := mergeKids_sub (o := rest) (acc := acc.append (.cons b bk .nil)) (S := S) (by
          apply sub_of
          intro t ht
          rw [Tr.roots_append, List.mem_append] at ht
          rcases ht with ht | ht
          · exact sub_root ha ht
          · simp only [Tr.roots, List.mem_singleton] at ht
            subst ht
            exact ⟨sk, hb, hbk⟩) hor (by
          refine distinct_append hda ⟨by simp [Tr.roots], hdo.2.1, trivial⟩ ?_
          intro x hx y hy
          simp only [Tr.roots, List.mem_singleton] at hy
          subst hy
          intro c
          simp only at c
          have := byName_of_mem hdn hx
          rw [← c, e] at this
          cases this) hdo.2.2 hdS hsS
      refine ⟨m, h1, h2, h3, ?_, ?_⟩
      · intro q
        rw [h4 q]
        cases q with
        | nil => rfl
        | cons x q =>
          simp only [hasAt]
          rw [byName_append, hbyo x]
          by_cases hx : x = b.name
          · subst hx
            rw [e, hrestb]
            simp [byName, Tr.find?]
          · rw [if_neg hx]
            have : byName x (.cons b bk .nil) = none := byName_none (by
              intro t ht
              simp only [Tr.roots, List.mem_singleton] at ht
              subst ht
              exact fun c => hx c.symm)
            rw [this, Option.or_none]
      · intro c
        have := (h5 c).1
        cases acc <;> simp [Tr.append] at this
    | some t =>
      obtain ⟨a, ak⟩ := t
      obtain ⟨sk', h1, h2⟩ := sub_byName ha e
      simp only at h1 h2
      rw [hb] at h1
      cases h1
      have hma := (byName_mem e).1
      -- the part below
      have : ∃ k', mergeField (fun pos => mergeKids pos ak bk) b.kind b.kind ak = some k' ∧ Distinct Attr.name k' ∧
          (if b.kind = .struct then k' ≠ .nil ∧ Sub k' sk else k' = ak) ∧ ∀ q, hasAt q k' = (hasAt q ak || hasAt q bk) := by
        unfold mergeField
        cases hk : b.kind with
        | leaf n =>
          simp only [hk, reduceCtorEq, if_false] at h2 hbk
          subst h2
          subst hbk
          refine ⟨bk, by simp, distinct_kids hda hma, by simp, by simp⟩
        | list =>
          simp only [hk, reduceCtorEq, if_false] at h2 hbk
          subst h2
          subst hbk
          refine ⟨bk, ?_, distinct_kids hda hma, by simp, by simp⟩
          simp only
          refine mergeKids_self (pos := true) (shape_kids hsS hmS) (distinct_kids hdS hmS) ⟨?_, rfl⟩
          have : ∀ {s : Tr Attr}, ShapeOk s → ∀ {t}, t ∈ s.roots → t.1.kind = .list → ∃ d l, t.2 = .cons d l .nil := by
            intro s
            induction s with
            | nil => intro _ t ht; cases ht
            | cons c kk rr _ ih =>
              intro hs t ht hl
              simp only [Tr.roots, List.mem_cons] at ht
              rcases ht with rfl | ht
              · have h3 := hs.1
                simp only at hl
                rw [hl] at h3
                exact h3
              · exact ih hs.2.2 ht hl
          exact this hsS hmS hk
        | struct =>
          simp only [hk, if_true] at h2 hbk
          obtain ⟨m, e1, e2, e3, e4, e5⟩ := mergeKids_sub h2.2 hbk.2 (distinct_kids hda hma) hdo.2.1 (distinct_kids hdS hmS) (shape_kids hsS hmS)
          exact ⟨m, e1, e3, by rw [if_pos rfl]; exact ⟨fun c => h2.1 (e5 c).1, e2⟩, e4⟩
      obtain ⟨k', e1, e2, e3, e4⟩ := this
      obtain ⟨acc1, h3, h4⟩ := updFirst_some (f := fun (a : Attr) (ak : Tr Attr) => mergeField (fun pos => mergeKids pos ak bk) a.kind b.kind ak) e e1 hdn
      rw [h3]
      simp only
      have hsub : Sub acc1 S := by
        by_cases hk : b.kind = .struct
        · rw [if_pos hk] at e3
          exact sub_updated h4 ha hb hk e3
        · rw [if_neg hk] at e3
          have : acc1 = acc := by
            apply Tr.roots_inj
            rw [h4]
            have hmap : acc.roots.map (fun u => if u.1.name = b.name then (u.1, k') else u) = acc.roots.map id := by
              apply List.map_congr_left
              intro u hu
              split
              · rename_i en
                have h5 := byName_of_mem hdn hu
                rw [en, e] at h5
                cases h5
                rw [e3]
                rfl
              · rfl
            rw [hmap, List.map_id]
          rw [this]
          exact ha
      obtain ⟨m, f1, f2, f3, f4, f5⟩ := mergeKids_sub (o := rest) hsub hor (distinct_updated h4 hda e2) hdo.2.2 hdS hsS
      refine ⟨m, f1, f2, f3, ?_, ?_⟩
      · intro q
        rw [f4 q]
        cases q with
        | nil => rfl
        | cons x q =>
          simp only [hasAt]
          rw [byName_updated h4, hbyo x]
          by_cases hx : x = b.name
          · subst hx
            rw [e, hrestb]
            simp [e4 q]
          · rw [if_neg hx, if_neg hx]
      · intro c
        have := (f5 c).1
        rw [← Tr.roots_eq_nil, h4, List.map_eq_nil_iff, Tr.roots_eq_nil] at this
        subst this
        simp [byName, Tr.find?] at e

/-! ### The paths of a projection -/

theorem hasAt_nil (x : Nat) (p : List Nat) : hasAt (x :: p) .nil = false := rfl

theorem prefix_cons {x y : Nat} {p q : List Nat} : (x :: p) <+: (y :: q) ↔ x = y ∧ p <+: q := List.cons_prefix_cons

theorem projKids_sub : ∀ {p : List Nat} {s : Tr Attr}, Distinct Attr.name s → ShapeOk s → hasAt p s = true → wholeLists p s → s ≠ .nil →
    projKids p s ≠ .nil ∧ Sub (projKids p s) s ∧ Distinct Attr.name (projKids p s) ∧
    ∀ q, hasAt q (projKids p s) = (hasAt q s && (decide (q <+: p) || decide (p <+: q)))
  | [], s, hd, hs, _, _, hne => by
    refine ⟨hne, sub_refl _ (Nat.le_refl _) hd hs, hd, ?_⟩
    intro q
    simp [projKids]
  | x :: p, s, hd, hs, hh, hw, _ => by
    unfold hasAt at hh
    unfold projKids
    cases e : byName x s with
    | none => rw [e] at hh; cases hh
    | some t =>
      obtain ⟨a, k⟩ := t
      rw [e] at hh
      simp only at hh ⊢
      obtain ⟨hm, hn⟩ := byName_mem e
      simp only at hn
      have hby : ∀ (kk : Tr Attr) y, byName y (.cons a kk .nil) = if y = x then some (a, kk) else none := by
        intro kk y
        show (if (a.name == y) = true then some (a, kk) else none) = _
        rw [hn]
        by_cases h : y = x
        · simp [h]
        · have : (x == y) = false := by simp; exact fun c => h c.symm
          simp [h, this]
      have hleaf : ∀ n, a.kind = .leaf n → k = .nil := fun n hk => shape_leaf hs hm hk
      have key : ∃ kk, projKids p k = kk ∧ (if a.kind = .struct then kk ≠ .nil ∧ Sub kk k else kk = k) ∧ Distinct Attr.name kk ∧
          ∀ q, hasAt q kk = (hasAt q k && (decide (q <+: p) || decide (p <+: q))) := by
        refine ⟨_, rfl, ?_⟩
        by_cases hk : a.kind = .struct
        · have hw' : wholeLists p k := by
            cases p with
            | nil => trivial
            | cons y p => exact (hw _ e).2
          obtain ⟨h1, h2, h3, h4⟩ := projKids_sub (p := p) (s := k) (distinct_kids hd hm) (shape_kids hs hm) hh hw' (shape_struct hs hm hk)
          rw [if_pos hk]
          exact ⟨⟨h1, h2⟩, h3, h4⟩
        · have : p = [] := by
            cases p with
            | nil => rfl
            | cons y p =>
              have h1 := (hw _ e).1
              cases hk' : a.kind with
              | struct => exact absurd hk' hk
              | list => exact absurd hk' h1
              | leaf n =>
                rw [hleaf n hk', hasAt_nil] at hh
                cases hh
          subst this
          rw [if_neg hk]
          refine ⟨rfl, distinct_kids hd hm, ?_⟩
          intro q
          simp [projKids]
      obtain ⟨kk, h1, h2, h3, h4⟩ := key
      rw [h1]
      refine ⟨by simp, ⟨⟨k, by rw [hn]; exact e, h2⟩, trivial⟩, ⟨by simp [Tr.roots], h3, trivial⟩, ?_⟩
      intro q
      cases q with
      | nil => simp [hasAt]
      | cons y q =>
        simp only [hasAt]
        rw [hby]
        by_cases hy : y = x
        · subst hy
          rw [e]
          simp only [if_true]
          rw [h4 q]
          congr 1
          rw [Bool.eq_iff_iff]
          simp only [Bool.or_eq_true, decide_eq_true_eq, prefix_cons, true_and]
        · rw [if_neg hy]
          simp only [Bool.false_eq, Bool.and_eq_false_iff]
          right
          rw [Bool.or_eq_false_iff, decide_eq_false_iff_not, decide_eq_false_iff_not, prefix_cons, prefix_cons]
          exact ⟨fun c => hy c.1, fun c => hy c.1.symm⟩

/-- What is read. -/
theorem project_ok {s : Tr Attr} (hs : Distinct Attr.name s) (hsh : ShapeOk s) : ∀ {paths : List (List Nat)} {acc p : Tr Attr}, Sub acc s → Distinct Attr.name acc →
    (∀ q ∈ paths, hasAt q s = true ∧ wholeLists q s) → project s paths acc = some p →
    Sub p s ∧ Distinct Attr.name p ∧ (∀ q, hasAt q p = (hasAt q acc || (hasAt q s && decide (Asked paths q)))) ∧ ∀ q ∈ paths, q ≠ []
  | [], acc, p, ha, hda, _, h => by
    simp only [project, Option.some.injEq] at h
    subst h
    refine ⟨ha, hda, ?_, by simp⟩
    intro q
    simp [Asked]
  | path :: paths, acc, p, ha, hda, hp, h => by
    obtain ⟨h1, h2⟩ := hp path (by simp)
    unfold project at h
    cases path with
    | nil => cases h
    | cons x path =>
      simp only at h
      cases e : byName x s with
      | none => rw [e] at h; cases h
      | some t =>
        rw [e] at h
        simp only at h
        have hne : s ≠ .nil := by
          rintro rfl
          cases e
        obtain ⟨k1, k2, k3, k4⟩ := projKids_sub hs hsh h1 h2 hne
        obtain ⟨m, m1, m2, m3, m4, _⟩ := mergeKids_sub ha k2 hda k3 hs hsh
        rw [m1] at h
        simp only at h
        obtain ⟨r1, r2, r3, r4⟩ := project_ok hs hsh m2 m3 (fun q hq => hp q (by simp [hq])) h
        refine ⟨r1, r2, ?_, ?_⟩
        · intro q
          rw [r3, m4, k4]
          have hA : Asked ((x :: path) :: paths) q ↔ (q <+: x :: path ∨ x :: path <+: q) ∨ Asked paths q := by
            unfold Asked
            constructor
            · rintro ⟨r, hr, h⟩
              rcases List.mem_cons.1 hr with rfl | hr
              · exact Or.inl h
              · exact Or.inr ⟨r, hr, h⟩
            · rintro (h | ⟨r, hr, h⟩)
              · exact ⟨_, List.mem_cons_self, h⟩
              · exact ⟨r, List.mem_cons_of_mem _ hr, h⟩
          have : decide (Asked ((x :: path) :: paths) q) = ((decide (q <+: x :: path) || decide (x :: path <+: q)) || decide (Asked paths q)) := by
            rw [decide_eq_decide.2 hA, Bool.decide_or, Bool.decide_or]
          rw [this]
          cases hasAt q acc <;> cases hasAt q s <;> simp
        · intro q hq
          rcases List.mem_cons.1 hq with rfl | hq
          · simp
          · exact r4 q hq

/-- Each column that is read, by its path. -/
theorem project_cols {s p : Tr Attr} (hs : Distinct Attr.name s) (hsh : ShapeOk s) {paths : List (List Nat)}
    (hp : ∀ q ∈ paths, hasAt q s = true ∧ wholeLists q s) (h : project s paths .nil = some p) {f : Attr → Col} (hf : ∀ a, (f a).name = a.name) (q : List Nat) :
    colAt q (p.map f) = if Asked paths q then colAt q (s.map f) else none := by
  obtain ⟨h1, h2, h3, _⟩ := project_ok hs hsh (acc := .nil) trivial trivial hp h
  have hrefl := sub_refl _ (Nat.le_refl _) hs hsh
  rw [colAt_sub hf q h1, h3]
  cases q with
  | nil => simp [colAt]
  | cons x q =>
    rw [hasAt_nil, Bool.false_or]
    by_cases ha : Asked paths (x :: q)
    · rw [if_pos ha, decide_eq_true ha, Bool.and_true]
      conv => rhs; rw [colAt_sub hf (x :: q) hrefl]
    · rw [if_neg ha, decide_eq_false ha, Bool.and_false]
      rfl

end Verif.Evolve
