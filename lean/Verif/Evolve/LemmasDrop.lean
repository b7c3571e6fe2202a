import Verif.Evolve.LemmasAdd
namespace Verif.Evolve

/-! ### A smaller schema -/

theorem fragOk_sub {lg : Bool} {s s' : Tr Attr} {fr : Frag} (h : FragOk lg s fr) (hs : Sub s' s) : FragOk lg s' fr := by
  refine ⟨h.nodup, h.rows, h.format, ?_, fun a ha => h.len a (sub_flat hs ha), fun a ha => h.nonnull a (sub_strict hs ha), h.del⟩
  intro t ht
  obtain ⟨sk, h1, h2⟩ := sub_root hs ht
  have hm := (byName_mem h1).1
  have hids : ∀ i ∈ rootIds t, i ∈ rootIds (t.1, sk) := by
    intro i hi
    simp only [rootIds, List.mem_cons] at hi ⊢
    rcases hi with hi | hi
    · exact Or.inl hi
    · right
      split at h2
      · exact sub_ids h2.2 hi
      · rw [← h2]; exact hi
  rcases h.whole _ hm with ⟨f, hf, h3⟩ | ⟨h3, h4, h5⟩
  · exact Or.inl ⟨f, hf, fun i hi => h3 i (hids i hi)⟩
  · refine Or.inr ⟨fun f hf i hi => h3 f hf i (hids i hi), ?_, h5⟩
    intro a ha
    apply h4
    rcases List.mem_cons.1 ha with rfl | ha
    · simp
    · split at ha
      · rename_i hk
        rw [if_pos hk] at h2
        simp only [List.mem_cons]
        right
        rw [if_pos hk]
        exact sub_strict h2.2 ha
      · cases ha

theorem findSome_filter {α β : Type} {f : α → Option β} {p : α → Bool} : ∀ {l : List α}, (∀ x ∈ l, p x = false → f x = none) →
    (l.filter p).findSome? f = l.findSome? f
  | [], _ => rfl
  | x :: l, h => by
    have ih := findSome_filter (l := l) (fun y hy => h y (by simp [hy]))
    rw [List.filter_cons]
    split
    · rw [List.findSome?_cons, List.findSome?_cons, ih]
    · rename_i hc
      rw [List.findSome?_cons, h x (by simp) (by simpa using hc), ih]

theorem dropFiles_lookup {s : Tr Attr} {fr : Frag} {i : Int} (hi : i ∈ ids s) : (dropFiles s fr).lookup i = fr.lookup i := by
  unfold Frag.lookup dropFiles
  apply findSome_filter
  intro f hf h
  apply File.lookup_none
  intro c
  rw [List.any_eq_false] at h
  exact h i c (by rw [List.contains_iff_mem]; exact hi)

theorem dropFiles_vals {s : Tr Attr} {i : Int} (hi : i ∈ ids s) (frags : List Frag) : absVals (frags.map (dropFiles s)) i = absVals frags i := by
  unfold absVals
  rw [List.flatMap_map]
  congr 1
  funext fr
  unfold Frag.colVals
  rw [dropFiles_lookup hi]
  rfl

theorem dropFiles_n (s : Tr Attr) (frags : List Frag) : absN (frags.map (dropFiles s)) = absN frags := by
  unfold absN
  rw [List.map_map]
  rfl

theorem fragOk_dropFiles {lg : Bool} {s : Tr Attr} {fr : Frag} (h : FragOk lg s fr) : FragOk lg s (dropFiles s fr) := by
  have hm : ∀ f ∈ (dropFiles s fr).files, f ∈ fr.files := fun f hf => (List.mem_filter.1 hf).1
  refine ⟨?_, fun f hf => h.rows f (hm f hf), fun f hf => h.format f (hm f hf), ?_, ?_, ?_, h.del⟩
  · have h1 := h.nodup
    unfold List.Nodup at h1 ⊢
    rw [List.pairwise_flatMap] at h1 ⊢
    exact ⟨fun f hf => h1.1 f (hm f hf), h1.2.sublist List.filter_sublist⟩
  · intro t ht
    rcases h.whole t ht with ⟨f, hf, h1⟩ | ⟨h1, h2⟩
    · refine Or.inl ⟨f, List.mem_filter.2 ⟨hf, ?_⟩, h1⟩
      rw [List.any_eq_true]
      refine ⟨t.1.id, h1 _ (by simp [rootIds]), ?_⟩
      rw [List.contains_iff_mem]
      exact mem_ids_root.2 ⟨t, ht, by simp [rootIds]⟩
    · exact Or.inr ⟨fun f hf => h1 f (hm f hf), h2⟩
  · intro a ha hk v hv
    rw [dropFiles_lookup (List.mem_map_of_mem ha)] at hv
    exact h.len a ha hk v hv
  · intro a ha hk v hv
    rw [dropFiles_lookup (strict_ids ha)] at hv
    exact h.nonnull a ha hk v hv

/-! ### What is left -/

theorem hasAt_cons (x : Nat) (q : List Nat) (a : Attr) (k r : Tr Attr) : hasAt (x :: q) (.cons a k r) = if a.name = x then hasAt q k else hasAt (x :: q) r := by
  show (match (if a.name == x then some (a, k) else byName x r) with | none => false | some t => hasAt q t.2) = _
  by_cases h : a.name = x
  · simp [h]
  · rw [if_neg h, if_neg (by simpa using h)]
    rfl

theorem byName_cons (x : Nat) (a : Attr) (k r : Tr Attr) : byName x (.cons a k r) = if a.name = x then some (a, k) else byName x r := by
  show (if a.name == x then some (a, k) else byName x r) = _
  by_cases h : a.name = x
  · simp [h]
  · rw [if_neg h, if_neg (by simpa using h)]

theorem exclude_all : ∀ {top : Bool} {s p : Tr Attr}, Distinct Attr.name s → ShapeOk s → (∀ q, hasAt q s = true → hasAt q p = true) → exclude top s p = .nil
  | _, .nil, _, _, _, _ => rfl
  | top, .cons a k r, p, hd, hs, h => by
    have h0 : hasAt [a.name] p = true := h _ (by rw [hasAt_cons, if_pos rfl]; rfl)
    unfold exclude
    cases e : byName a.name p with
    | none => unfold hasAt at h0; rw [e] at h0; cases h0
    | some o =>
      obtain ⟨o, ok⟩ := o
      have hr : exclude top r p = .nil := by
        apply exclude_all hd.2.2 hs.2.2
        intro q hq
        apply h
        cases q with
        | nil => rfl
        | cons x q =>
          rw [hasAt_cons]
          split
          · rename_i hx
            exfalso
            subst hx
            unfold hasAt at hq
            cases e2 : byName a.name r with
            | none => rw [e2] at hq; cases hq
            | some t => exact hd.1 t (byName_mem e2).1 (byName_mem e2).2
          · exact hq
      have hk : exclude false k ok = .nil := by
        apply exclude_all hd.2.1 hs.2.1
        intro q hq
        have := h (a.name :: q) (by rw [hasAt_cons, if_pos rfl]; exact hq)
        unfold hasAt at this
        rw [e] at this
        exact this
      simp only
      split
      · exact hr
      · exact hr
      · rw [hk]
        exact hr

theorem mem_tailsOf {x : Nat} {paths : List (List Nat)} {q : List Nat} : q ∈ tailsOf x paths ↔ x :: q ∈ paths := by
  unfold tailsOf
  rw [List.mem_filterMap]
  constructor
  · rintro ⟨p, hp, h⟩
    cases p with
    | nil => cases h
    | cons y p =>
      simp only at h
      split at h
      · rename_i hy
        cases h
        rw [← hy]
        exact hp
      · cases h
  · intro h
    exact ⟨x :: q, h, by simp⟩

theorem asked_cons {paths : List (List Nat)} (hne : ∀ r ∈ paths, r ≠ []) (x : Nat) (q : List Nat) : Asked paths (x :: q) ↔ Asked (tailsOf x paths) q := by
  unfold Asked
  constructor
  · rintro ⟨r, hr, h⟩
    cases r with
    | nil => exact absurd rfl (hne _ hr)
    | cons y r =>
      rw [prefix_cons, prefix_cons] at h
      have hy : y = x := by rcases h with h | h <;> simp [h.1]
      subst hy
      exact ⟨r, mem_tailsOf.2 hr, by simpa using h⟩
  · rintro ⟨r, hr, h⟩
    exact ⟨x :: r, mem_tailsOf.1 hr, by simpa using h⟩

theorem asked_one {paths : List (List Nat)} (hne : ∀ r ∈ paths, r ≠ []) (x : Nat) : Asked paths [x] ↔ tailsOf x paths ≠ [] := by
  rw [asked_cons hne]
  unfold Asked
  constructor
  · rintro ⟨r, hr, _⟩ c
    rw [c] at hr
    cases hr
  · intro h
    cases e : tailsOf x paths with
    | nil => exact absurd e h
    | cons r l => exact ⟨r, by simp, Or.inl (by simp)⟩

def Kept (t : Attr × Tr Attr) (s : Tr Attr) : Prop :=
  ∃ u ∈ s.roots, t.1 = u.1 ∧ (if t.1.kind = .struct then t.2 ≠ .nil ∧ Sub t.2 u.2 else t.2 = u.2)

theorem kept_sub {s s' : Tr Attr} (hd : Distinct Attr.name s) (h : ∀ t ∈ s'.roots, Kept t s) : Sub s' s := by
  apply sub_of
  intro t ht
  obtain ⟨u, hu, h1, h2⟩ := h t ht
  refine ⟨u.2, ?_, h2⟩
  rw [h1]
  exact byName_of_mem (distinct_names hd) hu

theorem exclude_spec {f : Attr → Col} (hf : ∀ a, (f a).name = a.name) : ∀ {top : Bool} {s p : Tr Attr} {paths : List (List Nat)}, Distinct Attr.name s → ShapeOk s →
    (∀ q ∈ paths, q ≠ []) → (∀ x q, x :: q ∈ paths → (byName x s).isSome → hasAt (x :: q) s = true ∧ wholeLists (x :: q) s) →
    (∀ x q, hasAt (x :: q) s = true → hasAt (x :: q) p = decide (Asked paths (x :: q))) →
    (exclude top s p).map f = specDrop paths (s.map f) ∧ (∀ t ∈ (exclude top s p).roots, Kept t s) ∧ Distinct Attr.name (exclude top s p)
  | _, .nil, p, paths, _, _, _, _, _ => ⟨rfl, (fun _ h => nomatch h), trivial⟩
  | top, .cons a k r, p, paths, hd, hs, hne, hfine, h => by
    have hb : ∀ x, (byName x r).isSome → a.name ≠ x := by
      intro x hx c
      cases e : byName x r with
      | none => rw [e] at hx; cases hx
      | some t => exact hd.1 t (byName_mem e).1 ((byName_mem e).2.trans c.symm)
    obtain ⟨r1, r2, r3⟩ := exclude_spec hf (top := top) (s := r) (p := p) (paths := paths) hd.2.2 hs.2.2 hne (by
        intro x q hq hx
        have hax := hb x hx
        obtain ⟨g1, g2⟩ := hfine x q hq (by rw [byName_cons, if_neg hax]; exact hx)
        rw [hasAt_cons, if_neg hax] at g1
        refine ⟨g1, ?_⟩
        cases q with
        | nil => trivial
        | cons y q =>
          intro t ht
          exact g2 t (by rw [byName_cons, if_neg hax]; exact ht)) (by
        intro x q hq
        have hx : (byName x r).isSome := by
          unfold hasAt at hq
          cases e : byName x r with
          | none => rw [e] at hq; cases hq
          | some t => rfl
        exact h x q (by rw [hasAt_cons, if_neg (hb x hx)]; exact hq))
    have r2' : ∀ t ∈ (exclude top r p).roots, Kept t (.cons a k r) := by
      intro t ht
      obtain ⟨u, hu, g⟩ := r2 t ht
      exact ⟨u, by simp [Tr.roots, hu], g⟩
    have hcons : ∀ k' : Tr Attr, (if a.kind = .struct then k' ≠ .nil ∧ Sub k' k else k' = k) → Distinct Attr.name k' →
        (∀ t ∈ (Tr.cons a k' (exclude top r p)).roots, Kept t (.cons a k r)) ∧ Distinct Attr.name (.cons a k' (exclude top r p)) := by
      intro k' hk' hdk
      refine ⟨?_, ?_, hdk, r3⟩
      · intro t ht
        simp only [Tr.roots, List.mem_cons] at ht
        rcases ht with rfl | ht
        · exact ⟨(a, k), by simp [Tr.roots], rfl, hk'⟩
        · exact r2' t ht
      · intro t ht
        obtain ⟨u, hu, g, _⟩ := r2 t ht
        rw [g]
        exact hd.1 u hu
    have h0 := h a.name [] (by rw [hasAt_cons, if_pos rfl]; rfl)
    unfold exclude
    simp only [Tr.map, specDrop, hf]
    cases e : byName a.name p with
    | none =>
      have hn : tailsOf a.name paths = [] := by
        unfold hasAt at h0
        rw [e] at h0
        have := of_decide_eq_false h0.symm
        rw [asked_one hne] at this
        exact Classical.not_not.1 this
      rw [if_pos hn]
      simp only [Tr.map]
      refine ⟨by rw [r1], hcons k ?_ hd.2.1⟩
      split
      · rename_i hk
        have hsh := hs.1
        rw [hk] at hsh
        exact ⟨hsh, sub_refl _ (Nat.le_refl _) hd.2.1 hs.2.1⟩
      · rfl
    | some o =>
      obtain ⟨o, ok⟩ := o
      have hn : tailsOf a.name paths ≠ [] := by
        unfold hasAt at h0
        rw [e] at h0
        exact (asked_one hne _).1 (of_decide_eq_true h0.symm)
      rw [if_neg hn]
      have hk : ∀ q, hasAt q k = true → hasAt q ok = decide (Asked (tailsOf a.name paths) q) := by
        intro q hq
        have := h a.name q (by rw [hasAt_cons, if_pos rfl]; exact hq)
        unfold hasAt at this
        rw [e] at this
        simp only at this
        rw [this]
        exact decide_eq_decide.2 (asked_cons hne _ _)
      by_cases hc : (tailsOf a.name paths).contains [] = true
      · rw [if_pos hc]
        have hkn : exclude false k ok = .nil := by
          apply exclude_all hd.2.1 hs.2.1
          intro q hq
          rw [hk q hq]
          exact decide_eq_true ⟨[], List.contains_iff_mem.1 hc, Or.inr (by simp)⟩
        simp only
        split
        · exact ⟨r1, r2', r3⟩
        · exact ⟨r1, r2', r3⟩
        · rw [hkn]
          exact ⟨r1, r2', r3⟩
      · rw [if_neg hc]
        -- a path goes on below
        obtain ⟨q, hq⟩ := List.exists_mem_of_ne_nil _ hn
        have hq0 : ∀ q ∈ tailsOf a.name paths, q ≠ [] := by
          intro q hq c
          subst c
          exact hc (List.contains_iff_mem.2 hq)
        have hfine' : ∀ q, q ∈ tailsOf a.name paths → hasAt q k = true ∧ wholeLists (a.name :: q) (.cons a k r) := by
          intro q hq
          obtain ⟨g1, g2⟩ := hfine a.name q (mem_tailsOf.1 hq) (by rw [byName_cons, if_pos rfl]; rfl)
          rw [hasAt_cons, if_pos rfl] at g1
          exact ⟨g1, g2⟩
        have hkind : a.kind = .struct := by
          cases q with
          | nil => exact absurd rfl (hq0 _ hq)
          | cons y q =>
            obtain ⟨g1, g2⟩ := hfine' _ hq
            have hl := (g2 (a, k) (by rw [byName_cons, if_pos rfl])).1
            have hsh := hs.1
            cases hk : a.kind with
            | struct => rfl
            | list => exact absurd hk hl
            | leaf t =>
              rw [hk] at hsh
              simp only at hsh
              rw [hsh] at g1
              cases g1
        obtain ⟨k1, k2, k3⟩ := exclude_spec hf (top := false) (s := k) (p := ok) (paths := tailsOf a.name paths) hd.2.1 hs.2.1 hq0 (by
            intro x q hq _
            obtain ⟨g1, g2⟩ := hfine' _ hq
            exact ⟨g1, (g2 (a, k) (by rw [byName_cons, if_pos rfl])).2⟩) (fun x q hq => hk _ hq)
        simp only [hkind]
        rw [← k1]
        cases e3 : exclude false k ok with
        | nil => exact ⟨r1, r2', r3⟩
        | cons b bk br =>
          simp only [Tr.map]
          refine ⟨by rw [r1], hcons _ ?_ (by rw [← e3]; exact k3)⟩
          rw [if_pos hkind]
          refine ⟨by simp, ?_⟩
          rw [← e3]
          exact kept_sub hd.2.1 k2

theorem sub_nodup : ∀ {p s : Tr Attr}, Sub p s → Distinct Attr.name p → (ids s).Nodup → (ids p).Nodup
  | .nil, _, _, _, _ => List.nodup_nil
  | .cons a k r, s, ⟨⟨sk, h1, h2⟩, h3⟩, hd, hn => by
    have hm := (byName_mem h1).1
    have hkn : (ids sk).Nodup ∧ a.id ∉ ids sk := by
      have := List.nodup_cons.1 (kids_nodup hn hm)
      exact ⟨this.2, this.1⟩
    have hksub : ∀ i ∈ ids k, i ∈ ids sk := by
      intro i hi
      split at h2
      · exact sub_ids h2.2 hi
      · rw [← h2]; exact hi
    have hdisj : ∀ i ∈ rootIds (a, sk), i ∉ ids r := by
      intro i hi c
      obtain ⟨t, ht, hti⟩ := mem_ids_root.1 c
      obtain ⟨tk, g1, g2⟩ := sub_root h3 ht
      have hti' : i ∈ rootIds (t.1, tk) := by
        simp only [rootIds, List.mem_cons] at hti ⊢
        rcases hti with hti | hti
        · exact Or.inl hti
        · right
          split at g2
          · exact sub_ids g2.2 hti
          · rw [← g2]; exact hti
      have := root_of_id hn hm (byName_mem g1).1 hi hti'
      exact hd.1 t ht (congrArg (fun x => x.1.name) this).symm
    rw [ids_cons, List.nodup_cons, List.nodup_append]
    refine ⟨?_, ?_, sub_nodup h3 hd.2.2 hn, ?_⟩
    · rw [List.mem_append]
      rintro (c | c)
      · exact hkn.2 (hksub _ c)
      · exact hdisj a.id (by simp [rootIds]) c
    · split at h2
      · exact sub_nodup h2.2 hd.2.1 hkn.1
      · rw [h2]; exact hkn.1
    · intro i hi j hj c
      subst c
      exact hdisj i (by simp [rootIds, hksub i hi]) hj

theorem drop_ok {d d' : Ds} {paths : List (List Nat)} (hi : Inv d) (hw : ∀ q ∈ paths, wholeLists q d.schema) (h : drop d paths = some d') :
    Inv d' ∧ d'.table = ⟨d.table.n, specDrop paths d.table.cols⟩ := by
  unfold drop at h
  split at h
  case isFalse => cases h
  rename_i hall
  rw [List.all_eq_true] at hall
  have hr : ReadFine d.schema paths := fun q hq => ⟨hall q hq, hw q hq⟩
  cases e : project d.schema paths .nil with
  | none => rw [e] at h; cases h
  | some p =>
    rw [e] at h
    simp only at h
    obtain ⟨h1, h2, h3, h4⟩ := project_ok hi.schema.distinct hi.schema.shape (acc := .nil) trivial trivial (readFine_has hr) e
    obtain ⟨g1, g2, g3⟩ := exclude_spec (f := absCol d.frags) (fun _ => rfl) (top := true) (p := p) hi.schema.distinct hi.schema.shape h4
      (fun x q hq _ => readFine_has hr _ hq) (by
        intro x q hq
        rw [h3, hasAt_nil, Bool.false_or, hq, Bool.true_and])
    have hsub := kept_sub hi.schema.distinct g2
    generalize exclude true d.schema p = s' at h g1 g2 g3 hsub
    cases s' with
    | nil => cases h
    | cons a k r =>
    simp only [Option.some.injEq] at h
    subst h
    refine ⟨⟨⟨sub_nodup hsub g3 hi.schema.nodup, fun i hii => hi.schema.nonneg i (sub_ids hsub hii), g3, sub_shape hsub hi.schema.shape⟩, ?_, ?_⟩, ?_⟩
    · intro fr hfr
      obtain ⟨fr0, hfr0, rfl⟩ := List.mem_map.1 hfr
      exact fragOk_dropFiles (fragOk_sub (hi.frags fr0 hfr0) hsub)
    · intro c
      cases c
    · unfold Ds.table
      simp only [dropFiles_n, Data.mk.injEq, true_and]
      rw [← g1]
      apply Tr.map_congr
      intro b hb
      unfold absCol
      rw [dropFiles_vals (List.mem_map_of_mem hb)]

end Verif.Evolve
