import Verif.Fts.SpecScan
import Verif.Fts.PropsSearch
/-! # Full text search: merging the results of columns -/
namespace Verif.Fts

/-- Rows that come before another one in a list by decreasing score. -/
theorem count_before {l : List (Nat × Nat)} (hd : l.Pairwise (fun a b => b.2 ≤ a.2)) {i : Nat} {x : Nat × Nat} (hx : l[i]? = some x)
    {rows : List Nat} (hnd : rows.Nodup) (hr : ∀ r ∈ rows, ∃ v, (r, v) ∈ l ∧ x.2 < v) : rows.length ≤ i := by
  have hsub : ∀ r ∈ rows, r ∈ (l.take i).map Prod.fst := by
    intro r hrr
    obtain ⟨v, hv, hlt⟩ := hr r hrr
    obtain ⟨j, hj⟩ := List.getElem?_of_mem hv
    obtain ⟨hil, hie⟩ := List.getElem?_eq_some_iff.1 hx
    obtain ⟨hjl, hje⟩ := List.getElem?_eq_some_iff.1 hj
    have hji : j < i := by
      apply Classical.byContradiction
      intro hn
      rcases Nat.lt_or_eq_of_le (Nat.le_of_not_lt hn) with h | h
      · have := List.pairwise_iff_getElem.1 hd i j hil hjl h
        rw [hie, hje] at this
        simp only at this
        omega
      · subst h
        rw [hie] at hje
        rw [hje] at hlt
        simp only at hlt
        omega
    refine List.mem_map.2 ⟨(r, v), ?_, rfl⟩
    exact List.mem_iff_getElem?.2 ⟨j, by rw [List.getElem?_take, if_pos hji, hj]⟩
  have := Verif.Deletion.nodup_length_le hnd hsub
  rw [List.length_map, List.length_take] at this
  omega

/-! ## Grouping -/

theorem groupMax_aux : ∀ (l : List (Nat × Nat)) (m : SMap Nat), m.Sorted →
    (l.foldl (fun m (x : Nat × Nat) => SMap.insert x.1 (max x.2 ((SMap.get x.1 m).getD 0)) m) m).Sorted ∧
    ∀ r s, SMap.get r (l.foldl (fun m (x : Nat × Nat) => SMap.insert x.1 (max x.2 ((SMap.get x.1 m).getD 0)) m) m) = some s ↔
      ((r, s) ∈ l ∨ SMap.get r m = some s) ∧ (∀ s', (r, s') ∈ l → s' ≤ s) ∧ ∀ s', SMap.get r m = some s' → s' ≤ s := by
  intro l
  induction l with
  | nil =>
    intro m hm
    refine ⟨hm, ?_⟩
    intro r s
    simp only [List.foldl_nil, List.not_mem_nil, false_or, false_implies, implies_true, true_and]
    constructor
    · intro h
      refine ⟨h, ?_⟩
      intro s' h'
      rw [h] at h'
      cases h'
      exact Nat.le_refl _
    · exact fun h => h.1
  | cons a l ih =>
    intro m hm
    rw [List.foldl_cons]
    obtain ⟨i1, i2⟩ := ih _ (SMap.sorted_insert a.1 (max a.2 ((SMap.get a.1 m).getD 0)) m hm)
    refine ⟨i1, ?_⟩
    intro r s
    rw [i2 r s]
    obtain ⟨ar, as⟩ := a
    simp only [SMap.get_insert]
    by_cases hr : r = ar
    · subst hr
      simp only [if_true, Option.some.injEq, List.mem_cons, Prod.mk.injEq, true_and]
      cases hg : SMap.get r m with
      | none =>
        simp only [Option.getD_none, Nat.max_zero, reduceCtorEq, or_false, false_implies, implies_true, and_true]
        constructor
        · rintro ⟨h1, h2, h3⟩
          refine ⟨?_, ?_⟩
          · rcases h1 with h1 | h1
            · exact Or.inr h1
            · exact Or.inl h1.symm
          · intro s' h'
            rcases h' with rfl | h'
            · exact h3 _ rfl
            · exact h2 s' h'
        · rintro ⟨h1, h2⟩
          refine ⟨?_, fun s' h' => h2 s' (Or.inr h'), ?_⟩
          · rcases h1 with h1 | h1
            · exact Or.inr h1.symm
            · exact Or.inl h1
          · rintro s' rfl
            exact h2 _ (Or.inl rfl)
      | some g =>
        simp only [Option.getD_some, Option.some.injEq]
        constructor
        · rintro ⟨h1, h2, h3⟩
          have h4 := h3 _ rfl
          refine ⟨?_, ?_, ?_⟩
          · rcases h1 with h1 | h1
            · exact Or.inl (Or.inr h1)
            · rcases Nat.le_total as g with h | h
              · rw [Nat.max_eq_right h] at h1
                exact Or.inr h1
              · rw [Nat.max_eq_left h] at h1
                exact Or.inl (Or.inl h1.symm)
          · intro s' h'
            rcases h' with rfl | h'
            · omega
            · exact h2 s' h'
          · rintro s' rfl
            omega
        · rintro ⟨h1, h2, h3⟩
          have h4 := h2 as (Or.inl rfl)
          have h5 := h3 g rfl
          refine ⟨?_, fun s' h' => h2 s' (Or.inr h'), ?_⟩
          · rcases h1 with (h1 | h1) | h1
            · exact Or.inr (by omega)
            · exact Or.inl h1
            · exact Or.inr (by omega)
          · rintro s' rfl
            omega
    · have : ∀ s', (r, s') ∈ (ar, as) :: l ↔ (r, s') ∈ l := by
        intro s'
        rw [List.mem_cons, Prod.mk.injEq]
        constructor
        · rintro (h | h)
          · exact absurd h.1 hr
          · exact h
        · exact Or.inr
      simp only [if_neg hr, this]

theorem groupMax_sorted (l : List (Nat × Nat)) : (groupMax l).Sorted := (groupMax_aux l [] SMap.sorted_nil).1

theorem groupMax_get (l : List (Nat × Nat)) (r s : Nat) : SMap.get r (groupMax l) = some s ↔ (r, s) ∈ l ∧ ∀ s', (r, s') ∈ l → s' ≤ s := by
  have := (groupMax_aux l [] SMap.sorted_nil).2 r s
  unfold groupMax
  refine this.trans ?_
  constructor
  · rintro ⟨h1, h2, _⟩
    refine ⟨?_, h2⟩
    rcases h1 with h1 | h1
    · exact h1
    · cases h1
  · rintro ⟨h1, h2⟩
    exact ⟨Or.inl h1, h2, by intro s' h; cases h⟩

theorem exists_max {l : List (Nat × Nat)} {r s : Nat} (h : (r, s) ∈ l) : ∃ g, (r, g) ∈ l ∧ s ≤ g ∧ ∀ s', (r, s') ∈ l → s' ≤ g := by
  induction l generalizing s with
  | nil => cases h
  | cons a l ih =>
    obtain ⟨ar, as⟩ := a
    by_cases hl : ∃ s', (r, s') ∈ l
    · obtain ⟨s0, hs0⟩ := hl
      obtain ⟨g, h1, h2, h3⟩ := ih hs0
      by_cases hra : ar = r
      · subst hra
        rcases Nat.le_total as g with hle | hle
        · refine ⟨g, List.mem_cons_of_mem _ h1, ?_, ?_⟩
          · rcases List.mem_cons.1 h with h | h
            · cases h
              exact hle
            · exact h3 s h
          · intro s' h'
            rcases List.mem_cons.1 h' with h' | h'
            · cases h'
              exact hle
            · exact h3 s' h'
        · refine ⟨as, List.mem_cons_self .., ?_, ?_⟩
          · rcases List.mem_cons.1 h with h | h
            · cases h
              exact Nat.le_refl _
            · exact Nat.le_trans (h3 s h) hle
          · intro s' h'
            rcases List.mem_cons.1 h' with h' | h'
            · cases h'
              exact Nat.le_refl _
            · exact Nat.le_trans (h3 s' h') hle
      · have hin : ∀ s', (r, s') ∈ (ar, as) :: l → (r, s') ∈ l := by
          intro s' h'
          rcases List.mem_cons.1 h' with h' | h'
          · cases h'
            exact absurd rfl hra
          · exact h'
        exact ⟨g, List.mem_cons_of_mem _ h1, h3 s (hin s h), fun s' h' => h3 s' (hin s' h')⟩
    · rcases List.mem_cons.1 h with h | h
      · cases h
        refine ⟨s, List.mem_cons_self .., Nat.le_refl _, ?_⟩
        intro s' h'
        rcases List.mem_cons.1 h' with h' | h'
        · cases h'
          exact Nat.le_refl _
        · exact absurd ⟨s', h'⟩ hl
      · exact absurd ⟨s, h⟩ hl

theorem groupMax_has {l : List (Nat × Nat)} {r s : Nat} (h : (r, s) ∈ l) : ∃ g, (r, g) ∈ groupMax l ∧ s ≤ g := by
  obtain ⟨g, h1, h2, h3⟩ := exists_max h
  exact ⟨g, (SMap.get_iff_mem (groupMax_sorted l) ..).1 ((groupMax_get l r g).2 ⟨h1, h3⟩), h2⟩

theorem groupMax_mem {l : List (Nat × Nat)} {r s : Nat} : (r, s) ∈ groupMax l ↔ (r, s) ∈ l ∧ ∀ s', (r, s') ∈ l → s' ≤ s := by
  rw [← groupMax_get, SMap.get_iff_mem (groupMax_sorted l)]

/-! ## Merging -/

/-- The results contain what is needed for the best `k` rows of the sources. -/
structure Covers (srcs : List Src) (k : Nat) (u : List (Nat × Nat)) : Prop where
  sound : ∀ x ∈ u, ∃ s ∈ srcs, s.ok x.1 ∧ x.2 = s.score x.1
  cover : ∀ s ∈ srcs, ∀ d, s.ok d → (d, s.score d) ∈ u ∨
    ∃ r : List (Nat × Nat), (r.map Prod.fst).Nodup ∧ r.length = k ∧ ∀ x ∈ r, x ∈ u ∧ s.score d ≤ x.2

theorem Covers.nil (k : Nat) : Covers [] k [] := ⟨fun _ h => (by cases h), fun _ h => (by cases h)⟩

theorem Covers.append {a b : List Src} {k : Nat} {u v : List (Nat × Nat)} (ha : Covers a k u) (hb : Covers b k v) : Covers (a ++ b) k (u ++ v) := by
  refine ⟨?_, ?_⟩
  · intro x hx
    rcases List.mem_append.1 hx with h | h
    · obtain ⟨s, hs, h'⟩ := ha.sound x h
      exact ⟨s, List.mem_append_left _ hs, h'⟩
    · obtain ⟨s, hs, h'⟩ := hb.sound x h
      exact ⟨s, List.mem_append_right _ hs, h'⟩
  · intro s hs d hd
    rcases List.mem_append.1 hs with h | h
    · rcases ha.cover s h d hd with h' | ⟨r, h1, h2, h3⟩
      · exact Or.inl (List.mem_append_left _ h')
      · exact Or.inr ⟨r, h1, h2, fun x hx => ⟨List.mem_append_left _ (h3 x hx).1, (h3 x hx).2⟩⟩
    · rcases hb.cover s h d hd with h' | ⟨r, h1, h2, h3⟩
      · exact Or.inl (List.mem_append_right _ h')
      · exact Or.inr ⟨r, h1, h2, fun x hx => ⟨List.mem_append_right _ (h3 x hx).1, (h3 x hx).2⟩⟩

theorem Covers.topK {ok : Nat → Prop} {score : Nat → Nat} {k : Nat} {r : List (Nat × Nat)} (h : TopK ok score k r) : Covers [⟨ok, score⟩] k r := by
  refine ⟨?_, ?_⟩
  · intro x hx
    exact ⟨_, List.mem_singleton.2 rfl, h.sound x hx⟩
  · intro s hs d hd
    rw [List.mem_singleton] at hs
    subst hs
    by_cases hm : d ∈ r.map Prod.fst
    · refine Or.inl ?_
      obtain ⟨x, hx, hxd⟩ := List.mem_map.1 hm
      have := (h.sound x hx).2
      simp only
      rw [← hxd, ← this]
      exact hx
    · refine Or.inr ⟨r, h.sorted.imp fun h => Nat.ne_of_lt h, ?_, fun x hx => ⟨hx, h.best d hd hm x hx⟩⟩
      have := h.length
      apply Classical.byContradiction
      intro hn
      exact hm (h.complete (by omega) d hd)

theorem ranked_of_covers (srt : SortLib) {srcs : List Src} {k : Nat} {u : List (Nat × Nat)} (h : Covers srcs k u) :
    Ranked srcs k ((srt.sort (groupMax u)).take k) := by
  generalize hl : srt.sort (groupMax u) = l
  have hp : l.Perm (groupMax u) := hl ▸ srt.perm _
  have hd : l.Pairwise (fun a b => b.2 ≤ a.2) := hl ▸ srt.desc _
  have hmem : ∀ r s, (r, s) ∈ l ↔ (r, s) ∈ u ∧ ∀ s', (r, s') ∈ u → s' ≤ s := by
    intro r s
    rw [hp.mem_iff, groupMax_mem]
  have hhas : ∀ {r s}, (r, s) ∈ u → ∃ g, (r, g) ∈ l ∧ s ≤ g := by
    intro r s hrs
    obtain ⟨g, h1, h2⟩ := groupMax_has hrs
    exact ⟨g, hp.mem_iff.2 h1, h2⟩
  have hnd : (l.map Prod.fst).Nodup := (hp.map _).nodup_iff.2 (sorted_keys_nodup (groupMax_sorted u))
  have htake : ∀ x ∈ l.take k, ∃ i, i < k ∧ l[i]? = some x := by
    intro x hx
    obtain ⟨i, hi⟩ := List.getElem?_of_mem hx
    rw [List.getElem?_take] at hi
    by_cases hik : i < k
    · rw [if_pos hik] at hi
      exact ⟨i, hik, hi⟩
    · rw [if_neg hik] at hi
      cases hi
  refine ⟨?_, ?_, ?_, ?_, ?_, ?_⟩
  · exact hnd.sublist ((List.take_sublist _ _).map _)
  · exact hd.sublist (List.take_sublist _ _)
  · intro x hx
    have hxl := List.mem_of_mem_take hx
    obtain ⟨xr, xs⟩ := x
    obtain ⟨hxu, hxm⟩ := (hmem xr xs).1 hxl
    refine ⟨h.sound _ hxu, ?_⟩
    intro s hs hok
    simp only at hok ⊢
    apply Classical.byContradiction
    intro hn
    rcases h.cover s hs xr hok with h1 | ⟨r, h1, h2, h3⟩
    · exact hn (hxm _ h1)
    · obtain ⟨i, hik, hi⟩ := htake _ hx
      have := count_before hd hi h1 (by
        intro row hrow
        obtain ⟨y, hy, rfl⟩ := List.mem_map.1 hrow
        obtain ⟨hyu, hyle⟩ := h3 y hy
        obtain ⟨g, hg, hge⟩ := hhas (r := y.1) (s := y.2) hyu
        exact ⟨g, hg, by simp only; omega⟩)
      rw [List.length_map] at this
      omega
  · rw [List.length_take]; omega
  · intro hlen s hs d hok
    rw [List.length_take] at hlen
    have hll : l.length < k := by omega
    rw [List.take_of_length_le (by omega)]
    rcases h.cover s hs d hok with h1 | ⟨r, h1, h2, h3⟩
    · obtain ⟨g, hg, _⟩ := hhas h1
      exact List.mem_map.2 ⟨_, hg, rfl⟩
    · exfalso
      have hsub : ∀ a ∈ r.map Prod.fst, a ∈ l.map Prod.fst := by
        intro a ha
        obtain ⟨y, hy, rfl⟩ := List.mem_map.1 ha
        obtain ⟨g, hg, _⟩ := hhas (r := y.1) (s := y.2) (h3 y hy).1
        exact List.mem_map.2 ⟨_, hg, rfl⟩
      have := Verif.Deletion.nodup_length_le h1 hsub
      simp only [List.length_map] at this
      omega
  · intro s hs d hok hnot x hx
    obtain ⟨i, hik, hi⟩ := htake x hx
    apply Classical.byContradiction
    intro hn
    rcases h.cover s hs d hok with h1 | ⟨r, h1, h2, h3⟩
    · obtain ⟨g, hg, hge⟩ := hhas h1
      obtain ⟨j, hj⟩ := List.getElem?_of_mem hg
      obtain ⟨hil, hie⟩ := List.getElem?_eq_some_iff.1 hi
      obtain ⟨hjl, hje⟩ := List.getElem?_eq_some_iff.1 hj
      have hkj : k ≤ j := by
        apply Classical.byContradiction
        intro hlt
        refine hnot (List.mem_map.2 ⟨(d, g), ?_, rfl⟩)
        exact List.mem_iff_getElem?.2 ⟨j, by rw [List.getElem?_take, if_pos (by omega), hj]⟩
      have := List.pairwise_iff_getElem.1 hd i j hil hjl (by omega)
      rw [hie, hje] at this
      simp only at this
      omega
    · have := count_before hd hi h1 (by
        intro row hrow
        obtain ⟨y, hy, rfl⟩ := List.mem_map.1 hrow
        obtain ⟨hyu, hyle⟩ := h3 y hy
        obtain ⟨g, hg, hge⟩ := hhas (r := y.1) (s := y.2) hyu
        exact ⟨g, hg, by omega⟩)
      rw [List.length_map] at this
      omega

theorem groupMax_length (l : List (Nat × Nat)) : (groupMax l).length ≤ l.length := by
  have hnd := sorted_keys_nodup (groupMax_sorted l)
  have := Verif.Deletion.nodup_length_le (t := l.map Prod.fst) hnd (by
    intro a ha
    obtain ⟨⟨r, s⟩, hx, rfl⟩ := List.mem_map.1 ha
    exact List.mem_map.2 ⟨_, (groupMax_mem.1 hx).1, rfl⟩)
  simpa using this

end Verif.Fts
