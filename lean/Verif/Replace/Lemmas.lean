import Verif.Replace.Model
/-! Lemmas about the replacement of data files. -/
namespace Verif.Replace

theorem swap_fields (n f : DataFile) : (swap n f).fields = f.fields := by
  unfold swap
  split <;> rfl

theorem replaceFrag_id (n : DataFile) (f : Frag) : (replaceFrag n f).id = f.id := rfl

theorem find_swap (n : DataFile) (files : List DataFile) (x : Int) :
    (files.map (swap n)).find? (fun d => d.fields.contains x) = (files.find? (fun d => d.fields.contains x)).map (swap n) := by
  induction files with
  | nil => rfl
  | cons f files ih =>
    rw [List.map_cons, List.find?_cons, List.find?_cons, swap_fields, ih]
    split <;> rfl

theorem uncovered_iff (n : DataFile) (files : List DataFile) : uncovered n files = true ↔ ∀ x ∈ n.fields, ∀ f ∈ files, x ∉ f.fields := by
  unfold uncovered
  rw [List.all_eq_true]
  constructor
  · intro h x hx f hf
    have := h x hx
    rw [List.all_eq_true] at this
    simpa using this f hf
  · intro h x hx
    rw [List.all_eq_true]
    intro f hf
    simpa using h x hx f hf

theorem map_swap_id (n : DataFile) (files : List DataFile) (h : ∀ f ∈ files, ¬ (f.fields = n.fields ∧ f.version = n.version)) : files.map (swap n) = files := by
  induction files with
  | nil => rfl
  | cons f files ih =>
    rw [List.map_cons, ih (fun g hg => h g (by simp [hg]))]
    unfold swap
    rw [if_neg (h f (by simp))]

/-- In a fragment with each field in one file, the file with a field is found. -/
theorem find_unique (files : List DataFile) (hu : (files.flatMap (·.fields)).Nodup) (d : DataFile) (hd : d ∈ files) (x : Int) (hx : x ∈ d.fields) :
    files.find? (fun d => d.fields.contains x) = some d := by
  induction files with
  | nil => cases hd
  | cons f files ih =>
    rw [List.flatMap_cons, List.nodup_append] at hu
    obtain ⟨_, h2, h3⟩ := hu
    rw [List.find?_cons]
    rcases List.mem_cons.mp hd with rfl | hd
    · rw [show d.fields.contains x = true from List.contains_iff_mem.mpr hx]
    · have : f.fields.contains x = false := by
        rw [Bool.eq_false_iff]
        intro hc
        exact h3 x (List.contains_iff_mem.mp hc) x (List.mem_flatMap.mpr ⟨d, hd, hx⟩) rfl
      rw [this]
      exact ih h2 hd

theorem mem_insertFrag (f g : Frag) (l : List Frag) : g ∈ insertFrag f l ↔ g = f ∨ g ∈ l := by
  induction l with
  | nil => simp [insertFrag]
  | cons a l ih =>
    unfold insertFrag
    split
    · simp
    · rw [List.mem_cons, ih, List.mem_cons]
      constructor
      · rintro (h | h | h)
        · exact Or.inr (Or.inl h)
        · exact Or.inl h
        · exact Or.inr (Or.inr h)
      · rintro (h | h | h)
        · exact Or.inr (Or.inl h)
        · exact Or.inl h
        · exact Or.inr (Or.inr h)

theorem mem_sortFrags (g : Frag) (l : List Frag) : g ∈ sortFrags l ↔ g ∈ l := by
  induction l with
  | nil => simp [sortFrags]
  | cons f l ih => rw [sortFrags, mem_insertFrag, ih, List.mem_cons]

theorem insertFrag_sorted (f : Frag) (l : List Frag) (h : l.Pairwise (fun a b => a.id ≤ b.id)) : (insertFrag f l).Pairwise (fun a b => a.id ≤ b.id) := by
  induction l with
  | nil => simp [insertFrag]
  | cons a l ih =>
    rw [List.pairwise_cons] at h
    unfold insertFrag
    split
    next hle =>
      refine List.pairwise_cons.mpr ⟨?_, List.pairwise_cons.mpr h⟩
      intro b hb
      rcases List.mem_cons.mp hb with rfl | hb
      · exact hle
      · have := h.1 b hb
        omega
    next hle =>
      refine List.pairwise_cons.mpr ⟨?_, ih h.2⟩
      intro b hb
      rcases (mem_insertFrag _ _ _).mp hb with rfl | hb
      · omega
      · exact h.1 b hb

theorem sortFrags_sorted (l : List Frag) : (sortFrags l).Pairwise (fun a b => a.id ≤ b.id) := by
  induction l with
  | nil => simp [sortFrags]
  | cons f l ih => exact insertFrag_sorted f _ ih

theorem insertFrag_count (f : Frag) (l : List Frag) (p : Frag → Bool) : (insertFrag f l).countP p = (f :: l).countP p := by
  induction l with
  | nil => rfl
  | cons a l ih =>
    unfold insertFrag
    split
    · rfl
    · rw [List.countP_cons, ih, List.countP_cons, List.countP_cons, List.countP_cons]
      omega

theorem sortFrags_count (l : List Frag) (p : Frag → Bool) : (sortFrags l).countP p = l.countP p := by
  induction l with
  | nil => rfl
  | cons f l ih => rw [sortFrags, insertFrag_count, List.countP_cons, List.countP_cons, ih]

/-- Two strictly increasing lists with the same members are equal. -/
theorem increasing_ext (a b : List Nat) (ha : a.Pairwise (· < ·)) (hb : b.Pairwise (· < ·)) (h : ∀ x, x ∈ a ↔ x ∈ b) : a = b := by
  induction a generalizing b with
  | nil =>
    cases b with
    | nil => rfl
    | cons y b => exact absurd ((h y).mpr (by simp)) (by simp)
  | cons x a ih =>
    cases b with
    | nil => exact absurd ((h x).mp (by simp)) (by simp)
    | cons y b =>
      rw [List.pairwise_cons] at ha hb
      have hxy : x = y := by
        rcases List.mem_cons.mp ((h x).mp (by simp)) with h1 | h1
        · exact h1
        · rcases List.mem_cons.mp ((h y).mpr (by simp)) with h2 | h2
          · exact h2.symm
          · have := ha.1 y h2
            have := hb.1 x h1
            omega
      subst hxy
      rw [ih b ha.2 hb.2]
      intro z
      constructor
      · intro hz
        rcases List.mem_cons.mp ((h z).mp (List.mem_cons_of_mem _ hz)) with rfl | h'
        · have := ha.1 z hz; omega
        · exact h'
      · intro hz
        rcases List.mem_cons.mp ((h z).mpr (List.mem_cons_of_mem _ hz)) with rfl | h'
        · have := hb.1 z hz; omega
        · exact h'

theorem increasing_of_count (l : List Nat) (h : l.Pairwise (· ≤ ·)) (hc : l.Nodup) : l.Pairwise (· < ·) := by
  induction l with
  | nil => exact List.Pairwise.nil
  | cons x l ih =>
    rw [List.pairwise_cons] at h ⊢
    rw [List.nodup_cons] at hc
    refine ⟨fun y hy => ?_, ih h.2 hc.2⟩
    have := h.1 y hy
    have : x ≠ y := fun he => hc.1 (he ▸ hy)
    omega

/-- What the loop gives: for each replacement, the fragment with this id, changed. -/
theorem replaceAll_spec (frags : List Frag) (reps : List (Nat × DataFile)) (fs : List Frag) (h : replaceAll frags reps = .ok fs) :
    fs.map (·.id) = reps.map (·.1) ∧ (∀ p ∈ reps, ∃ f, frags.find? (fun f => f.id == p.1) = some f ∧ replaceFrag p.2 f ≠ f ∧ replaceFrag p.2 f ∈ fs) ∧
      ∀ f' ∈ fs, ∃ p ∈ reps, ∃ f, frags.find? (fun f => f.id == p.1) = some f ∧ f' = replaceFrag p.2 f ∧ replaceFrag p.2 f ≠ f := by
  induction reps generalizing fs with
  | nil =>
    simp only [replaceAll, Except.ok.injEq] at h
    subst h
    simp
  | cons p reps ih =>
    obtain ⟨id, n⟩ := p
    unfold replaceAll at h
    split at h
    next => cases h
    next f hf =>
      split at h
      next => cases h
      next hne =>
        split at h
        next => cases h
        next gs hgs =>
          simp only [Except.ok.injEq] at h
          subst h
          obtain ⟨h1, h2, h3⟩ := ih gs hgs
          have hid : f.id = id := by
            have := List.find?_some hf
            simpa using this
          refine ⟨by simp [h1, replaceFrag_id, hid], ?_, ?_⟩
          · intro p hp
            rcases List.mem_cons.mp hp with rfl | hp
            · exact ⟨f, hf, hne, by simp⟩
            · obtain ⟨g, hg, hgn, hgm⟩ := h2 p hp
              exact ⟨g, hg, hgn, by simp [hgm]⟩
          · intro f' hf'
            rcases List.mem_cons.mp hf' with rfl | hf'
            · exact ⟨(id, n), by simp, f, hf, rfl, hne⟩
            · obtain ⟨p, hp, g, hg, he, hn⟩ := h3 f' hf'
              exact ⟨p, by simp [hp], g, hg, he, hn⟩

theorem find_id (frags : List Frag) (hnd : (frags.map (·.id)).Nodup) (f : Frag) (hf : f ∈ frags) : frags.find? (fun g => g.id == f.id) = some f := by
  induction frags with
  | nil => cases hf
  | cons g frags ih =>
    rw [List.map_cons, List.nodup_cons] at hnd
    rw [List.find?_cons]
    rcases List.mem_cons.mp hf with rfl | hf
    · simp
    · have : (g.id == f.id) = false := by
        rw [beq_eq_false_iff_ne]
        intro he
        exact hnd.1 (he ▸ List.mem_map.mpr ⟨f, hf, rfl⟩)
      rw [this]
      exact ih hnd.2 hf

theorem sorted_nodup (frags fs : List Frag) (reps : List (Nat × DataFile)) (h1 : fs.map (·.id) = reps.map (·.1)) (hr : (reps.map (·.1)).Nodup)
    (hnd : (frags.map (·.id)).Nodup) : ((fs ++ frags.filter (fun f => !(reps.map (·.1)).contains f.id)).map (·.id)).Nodup := by
  rw [List.map_append, h1, List.nodup_append]
  refine ⟨hr, ?_, ?_⟩
  · exact List.Nodup.sublist (List.Sublist.map _ List.filter_sublist) hnd
  · intro a ha b hb he
    subst he
    obtain ⟨f, hf, rfl⟩ := List.mem_map.mp hb
    have := (List.mem_filter.mp hf).2
    rw [Bool.not_eq_true', ← Bool.not_eq_true, List.contains_iff_mem] at this
    exact this ha

theorem insertFrag_nodup (f : Frag) (l : List Frag) (h : ((f :: l).map (·.id)).Nodup) : ((insertFrag f l).map (·.id)).Nodup := by
  induction l with
  | nil => exact h
  | cons a l ih =>
    unfold insertFrag
    split
    · exact h
    · simp only [List.map_cons, List.nodup_cons, List.mem_cons, not_or] at h ⊢
      refine ⟨?_, ih (by simp only [List.map_cons, List.nodup_cons]; exact ⟨h.1.2, h.2.2⟩)⟩
      intro hm
      obtain ⟨g, hg, he⟩ := List.mem_map.mp hm
      rcases (mem_insertFrag _ _ _).mp hg with rfl | hg
      · exact h.1.1 he
      · exact h.2.1 (List.mem_map.mpr ⟨g, hg, he⟩)

theorem sortFrags_nodup (l : List Frag) (h : (l.map (·.id)).Nodup) : ((sortFrags l).map (·.id)).Nodup := by
  induction l with
  | nil => simp [sortFrags]
  | cons f l ih =>
    rw [sortFrags]
    refine insertFrag_nodup f _ ?_
    rw [List.map_cons, List.nodup_cons] at h ⊢
    refine ⟨?_, ih h.2⟩
    intro hm
    obtain ⟨g, hg, he⟩ := List.mem_map.mp hm
    exact h.1 (List.mem_map.mpr ⟨g, (mem_sortFrags _ _).mp hg, he⟩)

end Verif.Replace
