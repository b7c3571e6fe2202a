import Verif.Fix.Model
/-! Lemmas about the repair of duplicate ids. -/
namespace Verif.Fix
open Verif.PageTable (sortIds maximum? maximum?_spec maximum?_some mem_sortIds)

theorem idxOf_ne (l : List Int) {a b : Int} (h : a ≠ b) : (a :: l).idxOf b = l.idxOf b + 1 := by
  rw [List.idxOf_cons]
  have : (a == b) = false := by simpa using h
  rw [this]
  rfl

theorem mem_once (l : List Int) (x : Int) : x ∈ once l ↔ x ∈ l := by
  induction l with
  | nil => simp [once]
  | cons y l ih =>
    unfold once
    split
    next h =>
      rw [ih, List.mem_cons]
      constructor
      · exact Or.inr
      · rintro (rfl | h')
        · exact List.contains_iff_mem.mp h
        · exact h'
    next h => rw [List.mem_cons, List.mem_cons, ih]

theorem mem_repeated (l seen : List Int) (x : Int) : x ∈ repeated seen l → x ∈ l := by
  induction l generalizing seen with
  | nil => simp [repeated]
  | cons y l ih =>
    unfold repeated
    split
    · intro h
      rcases List.mem_cons.mp h with rfl | h
      · simp
      · exact List.mem_cons_of_mem _ (ih _ h)
    · intro h
      exact List.mem_cons_of_mem _ (ih _ h)

/-- An id is repeated if it is in the list twice, or once and among those seen. -/
theorem repeated_iff (l seen : List Int) (x : Int) (hx : 0 ≤ x) : x ∈ repeated seen l ↔ (x ∈ l ∧ x ∈ seen) ∨ 2 ≤ l.count x := by
  induction l generalizing seen with
  | nil => simp [repeated]
  | cons y l ih =>
    unfold repeated
    by_cases hyx : y = x
    · subst hyx
      by_cases hs : y ∈ seen
      · rw [if_pos (by simp [hx, hs])]
        simp [hs]
      · rw [if_neg (by simp [hs]), ih]
        simp only [List.mem_cons, true_or, and_true, true_and, List.count_cons_self]
        constructor
        · rintro (h | h)
          · exact Or.inr (by have := List.count_pos_iff.mpr h; omega)
          · exact Or.inr (by omega)
        · rintro (h | h)
          · exact absurd h hs
          · exact Or.inl (List.count_pos_iff.mp (by omega))
    · have hc : (y :: l).count x = l.count x := List.count_cons_of_ne (by simpa using hyx)
      rw [hc]
      have hxy : x ≠ y := fun h => hyx h.symm
      split
      · rw [List.mem_cons, ih, List.mem_cons]
        simp [hxy]
      · rw [ih, List.mem_cons, List.mem_cons]
        simp [hxy]

theorem repeated_nonneg (l seen : List Int) (x : Int) : x ∈ repeated seen l → 0 ≤ x := by
  induction l generalizing seen with
  | nil => simp [repeated]
  | cons y l ih =>
    unfold repeated
    split
    next h =>
      intro h'
      rcases List.mem_cons.mp h' with rfl | h'
      · rw [Bool.and_eq_true, decide_eq_true_eq] at h
        exact h.1
      · exact ih _ h'
    next => exact ih _

theorem mem_duplicates (frags : List (List File)) (x : Int) : x ∈ duplicates frags ↔ 0 ≤ x ∧ ∃ f ∈ frags, 2 ≤ (f.flatMap (·.2)).count x := by
  unfold duplicates
  rw [mem_sortIds, mem_once, List.mem_flatMap]
  constructor
  · rintro ⟨f, hf, hx⟩
    have h0 := repeated_nonneg _ _ _ hx
    refine ⟨h0, f, hf, ?_⟩
    rcases (repeated_iff _ _ _ h0).mp hx with h | h
    · simp at h
    · exact h
  · rintro ⟨h0, f, hf, hx⟩
    exact ⟨f, hf, (repeated_iff _ _ _ h0).mpr (Or.inr hx)⟩

theorem maxFieldId_frag (m : Manifest) (f : List File) (hf : f ∈ m.frags) (x : Int) (hx : x ∈ f.flatMap (·.2)) : x ≤ maxFieldId m := by
  have hm : x ∈ m.frags.flatMap (fun f => f.flatMap (·.2)) := List.mem_flatMap.mpr ⟨f, hf, hx⟩
  obtain ⟨k, hk⟩ := maximum?_some hm
  have := (maximum?_spec hk).2 x hm
  unfold maxFieldId
  rw [hk]
  simp only [Option.getD_some]
  omega

theorem maxFieldId_schema (m : Manifest) (x : Int) (hx : x ∈ m.schema) : x ≤ maxFieldId m := by
  obtain ⟨k, hk⟩ := maximum?_some hx
  have := (maximum?_spec hk).2 x hx
  unfold maxFieldId
  rw [hk]
  simp only [Option.getD_some]
  omega

theorem lookup_some (m : Manifest) (x y : Int) (h : lookup (mapping m) x = some y) :
    ∃ i : Nat, (duplicates m.frags)[i]? = some x ∧ y = maxFieldId m + 1 + (i : Int) := by
  unfold lookup at h
  rw [Option.map_eq_some_iff] at h
  obtain ⟨p, hp, rfl⟩ := h
  have h1 := List.find?_some hp
  have h2 := List.mem_of_find?_eq_some hp
  unfold mapping at h2
  obtain ⟨q, hq, rfl⟩ := List.mem_map.mp h2
  simp only [beq_iff_eq] at h1
  refine ⟨q.2, ?_, rfl⟩
  rw [← h1]
  exact List.mem_zipIdx_iff_getElem?.mp hq

theorem lookup_isSome (m : Manifest) (x : Int) (h : x ∈ duplicates m.frags) : ∃ y, lookup (mapping m) x = some y := by
  unfold lookup
  cases hf : (mapping m).find? (fun p => p.1 == x) with
  | some p => exact ⟨p.2, rfl⟩
  | none =>
    obtain ⟨i, hi⟩ := List.mem_iff_getElem?.mp h
    have hm : (x, maxFieldId m + 1 + (i : Int)) ∈ mapping m := List.mem_map.mpr ⟨(x, i), List.mem_zipIdx_iff_getElem?.mpr hi, rfl⟩
    have := List.find?_eq_none.mp hf _ hm
    simp at this

theorem lookup_none (m : Manifest) (x : Int) (h : x ∉ duplicates m.frags) : lookup (mapping m) x = none := by
  cases hl : lookup (mapping m) x with
  | none => rfl
  | some y =>
    obtain ⟨i, hi, _⟩ := lookup_some m x y hl
    exact absurd (List.mem_of_getElem? hi) h

theorem lookup_inj (m : Manifest) (x x' y : Int) (h : lookup (mapping m) x = some y) (h' : lookup (mapping m) x' = some y) : x' = x := by
  obtain ⟨i, hi, e⟩ := lookup_some m x y h
  obtain ⟨j, hj, e'⟩ := lookup_some m x' y h'
  have : i = j := by omega
  subst this
  rw [hi, Option.some.injEq] at hj
  exact hj.symm

/-! ## Renaming in files -/

section
variable {m : Int → Option Int}

theorem renameFields_seen (fs seen : List Int) (x y : Int) (hx : m x = some y) : x ∈ (renameFields m seen fs).2 ↔ x ∈ seen ∨ x ∈ fs := by
  induction fs generalizing seen with
  | nil => simp [renameFields]
  | cons z fs ih =>
    unfold renameFields
    by_cases hzx : z = x
    · subst hzx
      rw [hx]
      simp only
      split
      next h => simp only; rw [ih]; simp [List.contains_iff_mem.mp h]
      next h => simp only; rw [ih]; simp
    · have hxz : x ≠ z := fun h => hzx h.symm
      split
      · simp only; rw [ih]; simp [hxz]
      · split
        · simp only; rw [ih]; simp [hxz]
        · simp only; rw [ih]; simp [hxz]

theorem renameFields_old (fs seen : List Int) (x y : Int) (hx : m x = some y) (hinj : ∀ z, m z = some y → z = x) (hy : y ∉ fs) (hs : x ∈ seen) :
    y ∉ (renameFields m seen fs).1 := by
  induction fs generalizing seen with
  | nil => simp [renameFields]
  | cons z fs ih =>
    have hy' : y ∉ fs := fun h => hy (List.mem_cons_of_mem _ h)
    have hyz : y ≠ z := fun h => hy (by simp [h])
    unfold renameFields
    split
    · simp only [List.mem_cons]
      rintro (h | h)
      · exact hyz h
      · exact ih _ hy' hs h
    · next w hw =>
      split
      next =>
        simp only [List.mem_cons]
        rintro (h | h)
        · exact hyz h
        · exact ih _ hy' hs h
      next hc =>
        simp only [List.mem_cons]
        rintro (h | h)
        · subst h
          have := hinj z hw
          subst this
          exact hc (List.contains_iff_mem.mpr hs)
        · exact ih _ hy' (List.mem_cons_of_mem _ hs) h

theorem renameFields_new (fs seen : List Int) (x y : Int) (hx : m x = some y) (hinj : ∀ z, m z = some y → z = x) (hy : y ∉ fs) (hs : x ∉ seen) :
    (y ∈ (renameFields m seen fs).1 ↔ x ∈ fs) ∧ (x ∈ fs → (renameFields m seen fs).1.idxOf y = fs.idxOf x) := by
  induction fs generalizing seen with
  | nil => simp [renameFields]
  | cons z fs ih =>
    have hy' : y ∉ fs := fun h => hy (List.mem_cons_of_mem _ h)
    have hyz : y ≠ z := fun h => hy (by simp [h])
    have hzy : z ≠ y := fun h => hyz h.symm
    by_cases hzx : z = x
    · subst hzx
      unfold renameFields
      rw [hx]
      simp only
      rw [if_neg (fun hc => hs (List.contains_iff_mem.mp hc))]
      simp
    · have hxz : x ≠ z := fun h => hzx h.symm
      unfold renameFields
      split
      · obtain ⟨h1, h2⟩ := ih seen hy' hs
        simp only [List.mem_cons, hyz, hxz, false_or]
        refine ⟨h1, fun h => ?_⟩
        rw [idxOf_ne _ hzy, idxOf_ne _ hzx, h2 h]
      · next w hw =>
        split
        next =>
          obtain ⟨h1, h2⟩ := ih seen hy' hs
          simp only [List.mem_cons, hyz, hxz, false_or]
          refine ⟨h1, fun h => ?_⟩
          rw [idxOf_ne _ hzy, idxOf_ne _ hzx, h2 h]
        next =>
          have hwy : w ≠ y := fun h => hzx (hinj z (by rw [hw, h]))
          have hyw : y ≠ w := fun h => hwy h.symm
          obtain ⟨h1, h2⟩ := ih (z :: seen) hy' (by simp [hxz, hs])
          simp only [List.mem_cons, hyw, hxz, false_or]
          refine ⟨h1, fun h => ?_⟩
          rw [idxOf_ne _ hwy, idxOf_ne _ hzx, h2 h]

theorem renameFields_other (fs seen : List Int) (x : Int) (hx : m x = none) (hr : ∀ z, m z ≠ some x) :
    (x ∈ (renameFields m seen fs).1 ↔ x ∈ fs) ∧ (x ∈ fs → (renameFields m seen fs).1.idxOf x = fs.idxOf x) := by
  induction fs generalizing seen with
  | nil => simp [renameFields]
  | cons z fs ih =>
    by_cases hzx : z = x
    · subst hzx
      unfold renameFields
      rw [hx]
      simp
    · have hxz : x ≠ z := fun h => hzx h.symm
      unfold renameFields
      split
      · obtain ⟨h1, h2⟩ := ih seen
        simp only [List.mem_cons, hxz, false_or]
        refine ⟨h1, fun h => ?_⟩
        rw [idxOf_ne _ hzx, idxOf_ne _ hzx, h2 h]
      · next w hw =>
        split
        next =>
          obtain ⟨h1, h2⟩ := ih seen
          simp only [List.mem_cons, hxz, false_or]
          refine ⟨h1, fun h => ?_⟩
          rw [idxOf_ne _ hzx, idxOf_ne _ hzx, h2 h]
        next =>
          have hwx : w ≠ x := fun h => hr z (by rw [hw, h])
          have hxw : x ≠ w := fun h => hwx h.symm
          obtain ⟨h1, h2⟩ := ih (z :: seen)
          simp only [List.mem_cons, hxz, hxw, false_or]
          refine ⟨h1, fun h => ?_⟩
          rw [idxOf_ne _ hwx, idxOf_ne _ hzx, h2 h]

theorem holders_cons (f : File) (fs : List File) (x : Int) :
    holders (f :: fs) x = (if f.2.contains x then [(f.1, f.2.idxOf x)] else []) ++ holders fs x := by
  unfold holders
  rw [List.filterMap_cons]
  split
  next h =>
    split at h
    next => cases h
    next h' => rw [if_neg h']; rfl
  next h =>
    split at h
    next h' =>
      rw [if_pos h']
      simp only [Option.some.injEq] at h
      subst h
      rfl
    next => cases h

theorem holders_renameRev_seen (l : List File) (seen : List Int) (x y : Int) (hx : m x = some y) (hinj : ∀ z, m z = some y → z = x)
    (hy : ∀ f ∈ l, y ∉ f.2) (hs : x ∈ seen) : holders (renameRev m seen l) y = [] := by
  induction l generalizing seen with
  | nil => rfl
  | cons f l ih =>
    rw [renameRev, holders_cons]
    have h1 := renameFields_old f.2 seen x y hx hinj (hy f (by simp)) hs
    rw [if_neg (fun hc => h1 (List.contains_iff_mem.mp hc)), List.nil_append]
    exact ih _ (fun g hg => hy g (by simp [hg])) ((renameFields_seen f.2 seen x y hx).mpr (Or.inl hs))

theorem holders_renameRev (l : List File) (seen : List Int) (x y : Int) (hx : m x = some y) (hinj : ∀ z, m z = some y → z = x)
    (hy : ∀ f ∈ l, y ∉ f.2) (hs : x ∉ seen) : holders (renameRev m seen l) y = (holders l x).head?.toList := by
  induction l generalizing seen with
  | nil => rfl
  | cons f l ih =>
    rw [renameRev, holders_cons, holders_cons]
    obtain ⟨h1, h2⟩ := renameFields_new f.2 seen x y hx hinj (hy f (by simp)) hs
    by_cases hf : x ∈ f.2
    · rw [if_pos (List.contains_iff_mem.mpr (h1.mpr hf)), if_pos (List.contains_iff_mem.mpr hf),
        holders_renameRev_seen l _ x y hx hinj (fun g hg => hy g (by simp [hg])) ((renameFields_seen f.2 seen x y hx).mpr (Or.inr hf))]
      simp [h2 hf]
    · rw [if_neg (fun hc => hf (h1.mp (List.contains_iff_mem.mp hc))), if_neg (fun hc => hf (List.contains_iff_mem.mp hc)), List.nil_append, List.nil_append]
      refine ih _ (fun g hg => hy g (by simp [hg])) ?_
      intro hc
      rcases (renameFields_seen f.2 seen x y hx).mp hc with h | h
      · exact hs h
      · exact hf h

theorem holders_renameRev_other (l : List File) (seen : List Int) (x : Int) (hx : m x = none) (hr : ∀ z, m z ≠ some x) :
    holders (renameRev m seen l) x = holders l x := by
  induction l generalizing seen with
  | nil => rfl
  | cons f l ih =>
    rw [renameRev, holders_cons, holders_cons, ih]
    obtain ⟨h1, h2⟩ := renameFields_other f.2 seen x hx hr
    by_cases hf : x ∈ f.2
    · rw [if_pos (List.contains_iff_mem.mpr (h1.mpr hf)), if_pos (List.contains_iff_mem.mpr hf)]
      simp only [h2 hf]
    · rw [if_neg (fun hc => hf (h1.mp (List.contains_iff_mem.mp hc))), if_neg (fun hc => hf (List.contains_iff_mem.mp hc))]

theorem holders_reverse (l : List File) (x : Int) : holders l.reverse x = (holders l x).reverse := by
  unfold holders
  rw [List.filterMap_reverse]

theorem holders_retain (schema : List Int) (l : List File) (x : Int) (hx : x ∈ schema) : holders (retain schema l) x = holders l x := by
  induction l with
  | nil => rfl
  | cons f l ih =>
    unfold retain at ih ⊢
    rw [List.filter_cons]
    split
    · rw [holders_cons, holders_cons, ih]
    next h =>
      rw [holders_cons, ih, if_neg, List.nil_append]
      intro hc
      exact h (List.any_eq_true.mpr ⟨x, List.contains_iff_mem.mp hc, List.contains_iff_mem.mpr hx⟩)

theorem holders_renameFrag (l : List File) (x y : Int) (hx : m x = some y) (hinj : ∀ z, m z = some y → z = x) (hy : ∀ f ∈ l, y ∉ f.2) :
    holders (renameFrag m l) y = (holders l x).getLast?.toList := by
  unfold renameFrag
  rw [holders_reverse, holders_renameRev _ _ x y hx hinj (fun f hf => hy f (List.mem_reverse.mp hf)) (by simp), holders_reverse, List.head?_reverse]
  cases (holders l x).getLast? <;> rfl

theorem holders_renameFrag_other (l : List File) (x : Int) (hx : m x = none) (hr : ∀ z, m z ≠ some x) : holders (renameFrag m l) x = holders l x := by
  unfold renameFrag
  rw [holders_reverse, holders_renameRev_other _ _ x hx hr, holders_reverse, List.reverse_reverse]

end

/-! ## The schema -/

theorem renameSchema_get (ps : List (Int × Int)) (s s' : List Int) (h : renameSchema s ps = some s') (j : Nat) (x : Int) (hj : s[j]? = some x) (hnew : ∀ p ∈ ps, ∀ q ∈ ps, p.2 ≠ q.1) :
    s'[j]? = some ((lookup ps x).getD x) := by
  induction ps generalizing s x with
  | nil =>
    simp only [renameSchema, Option.some.injEq] at h
    subst h
    exact hj
  | cons p ps ih =>
    unfold renameSchema renameOne at h
    split at h
    next => cases h
    next s1 hs1 =>
      split at hs1
      next =>
        simp only [Option.some.injEq] at hs1
        subst hs1
        have hn' : ∀ a ∈ ps, ∀ b ∈ ps, a.2 ≠ b.1 := fun a ha b hb => hnew a (by simp [ha]) b (by simp [hb])
        by_cases hx : x = p.1
        · subst hx
          rw [ih _ h p.2 (by rw [List.getElem?_map, hj]; simp) hn']
          have h1 : lookup ps p.2 = none := by
            unfold lookup
            rw [Option.map_eq_none_iff, List.find?_eq_none]
            intro q hq hb
            simp only [beq_iff_eq] at hb
            exact hnew p (by simp) q (by simp [hq]) hb.symm
          have h2 : lookup (p :: ps) p.1 = some p.2 := by simp [lookup]
          rw [h1, h2]
          rfl
        · have hpx : ¬ p.1 = x := fun h => hx h.symm
          rw [ih _ h x (by rw [List.getElem?_map, hj]; simp [hx]) hn']
          have h2 : lookup (p :: ps) x = lookup ps x := by simp [lookup, List.find?_cons, hpx]
          rw [h2]
      next => cases hs1

theorem renameSchema_some (ps : List (Int × Int)) (s : List Int) (h : ∀ p ∈ ps, p.1 ∈ s) (hd : (ps.map (·.1)).Nodup) :
    ∃ s', renameSchema s ps = some s' := by
  induction ps generalizing s with
  | nil => exact ⟨s, rfl⟩
  | cons p ps ih =>
    unfold renameSchema renameOne
    rw [if_pos (List.contains_iff_mem.mpr (h p (by simp)))]
    simp only
    rw [List.map_cons, List.nodup_cons] at hd
    refine ih _ ?_ hd.2
    intro q hq
    refine List.mem_map.mpr ⟨q.1, h q (by simp [hq]), ?_⟩
    rw [if_neg]
    intro he
    exact hd.1 (List.mem_map.mpr ⟨q, hq, he⟩)

theorem renameSchema_length (ps : List (Int × Int)) (s s' : List Int) (h : renameSchema s ps = some s') : s'.length = s.length := by
  induction ps generalizing s with
  | nil => simp only [renameSchema, Option.some.injEq] at h; rw [h]
  | cons p ps ih =>
    unfold renameSchema renameOne at h
    split at h
    next => cases h
    next s1 hs1 =>
      split at hs1
      next =>
        simp only [Option.some.injEq] at hs1
        subst hs1
        rw [ih _ h, List.length_map]
      next => cases hs1

/-! ## Distinct ids, counts -/

theorem once_nodup (l : List Int) : (once l).Nodup := by
  induction l with
  | nil => simp [once]
  | cons x l ih =>
    unfold once
    split
    · exact ih
    next h => exact List.nodup_cons.mpr ⟨fun hm => h (List.contains_iff_mem.mpr ((mem_once l x).mp hm)), ih⟩

theorem insertSorted_nodup (x : Int) (l : List Int) (h : l.Nodup) (hx : x ∉ l) : (Verif.PageTable.insertSorted x l).Nodup := by
  induction l with
  | nil => simp [Verif.PageTable.insertSorted]
  | cons y l ih =>
    unfold Verif.PageTable.insertSorted
    split
    · exact List.nodup_cons.mpr ⟨hx, h⟩
    · rw [List.nodup_cons] at h ⊢
      refine ⟨?_, ih h.2 (fun hm => hx (List.mem_cons_of_mem _ hm))⟩
      rw [Verif.PageTable.mem_insertSorted]
      rintro (rfl | h')
      · exact hx (by simp)
      · exact h.1 h'

theorem sortIds_nodup (l : List Int) (h : l.Nodup) : (sortIds l).Nodup := by
  induction l with
  | nil => simp [sortIds]
  | cons x l ih =>
    rw [List.nodup_cons] at h
    exact insertSorted_nodup x _ (ih h.2) (fun hm => h.1 ((mem_sortIds _ _).mp hm))

theorem mapping_fst (m : Manifest) : (mapping m).map (·.1) = duplicates m.frags := by
  unfold mapping
  rw [List.map_map]
  exact List.zipIdx_map_fst 0 _

theorem mem_mapping (m : Manifest) (p : Int × Int) (h : p ∈ mapping m) : p.1 ∈ duplicates m.frags ∧ maxFieldId m < p.2 := by
  refine ⟨?_, ?_⟩
  · rw [← mapping_fst]
    exact List.mem_map.mpr ⟨p, h, rfl⟩
  · unfold mapping at h
    obtain ⟨q, _, rfl⟩ := List.mem_map.mp h
    simp only
    omega

theorem duplicates_le (m : Manifest) (x : Int) (h : x ∈ duplicates m.frags) : x ≤ maxFieldId m := by
  obtain ⟨_, f, hf, hc⟩ := (mem_duplicates _ _).mp h
  exact maxFieldId_frag m f hf x (List.count_pos_iff.mp (by omega))

theorem mapping_fresh (m : Manifest) : ∀ p ∈ mapping m, ∀ q ∈ mapping m, p.2 ≠ q.1 := by
  intro p hp q hq he
  have h1 := (mem_mapping m p hp).2
  have h2 := duplicates_le m q.1 (mem_mapping m q hq).1
  omega

theorem lookup_fresh (m : Manifest) (x y : Int) (h : lookup (mapping m) x = some y) : maxFieldId m < y := by
  obtain ⟨i, _, rfl⟩ := lookup_some m x y h
  omega

theorem renameFields_append {m : Int → Option Int} (fs gs seen : List Int) :
    (renameFields m seen (fs ++ gs)).1 = (renameFields m seen fs).1 ++ (renameFields m (renameFields m seen fs).2 gs).1 := by
  induction fs generalizing seen with
  | nil => rfl
  | cons x fs ih =>
    rw [List.cons_append]
    cases hx : m x with
    | none => simp only [renameFields, hx, ih, List.cons_append]
    | some y =>
      by_cases hc : seen.contains x = true
      · simp only [renameFields, hx, hc, if_true, ih, List.cons_append]
      · simp only [renameFields, hx, hc, ih, List.cons_append]
        rfl

theorem renameRev_flat {m : Int → Option Int} (l : List File) (seen : List Int) :
    (renameRev m seen l).flatMap (·.2) = (renameFields m seen (l.flatMap (·.2))).1 := by
  induction l generalizing seen with
  | nil => rfl
  | cons f l ih =>
    rw [renameRev, List.flatMap_cons, List.flatMap_cons, renameFields_append, ih]

/-- An id that no other id becomes: its first occurrence goes away, if it is mapped and not seen before. -/
theorem count_renameFields_old {m : Int → Option Int} (fs seen : List Int) (x : Int) (hr : ∀ z, m z ≠ some x) :
    (renameFields m seen fs).1.count x = if (m x).isSome && !seen.contains x then fs.count x - 1 else fs.count x := by
  induction fs generalizing seen with
  | nil => simp [renameFields]
  | cons z fs ih =>
    by_cases hzx : z = x
    · subst hzx
      cases hz : m z with
      | none =>
        unfold renameFields
        rw [hz]
        simp only [List.count_cons_self, ih, hz, Option.isSome_none, Bool.false_and]
        rfl
      | some y =>
        have hyz : y ≠ z := fun h => hr z (by rw [hz, h])
        unfold renameFields
        rw [hz]
        simp only
        split
        next hc =>
          simp only [List.count_cons_self, ih, hz, hc]
          simp
        next hc =>
          simp only [List.count_cons_self]
          rw [List.count_cons_of_ne hyz, ih]
          simp only [hz, Option.isSome_some, Bool.true_and, hc]
          simp
    · have hc0 : (z :: fs).count x = fs.count x := List.count_cons_of_ne hzx
      have hxz : x ≠ z := fun h => hzx h.symm
      rw [hc0]
      unfold renameFields
      split
      · simp only
        rw [List.count_cons_of_ne hzx, ih]
      · next w hw =>
        have hwx : w ≠ x := fun h => hr z (by rw [hw, h])
        split
        · simp only
          rw [List.count_cons_of_ne hzx, ih]
        · simp only
          rw [List.count_cons_of_ne hwx, ih]
          have : (z :: seen).contains x = seen.contains x := by simp [List.contains_cons, hxz]
          rw [this]

/-- A new id comes at most once. -/
theorem count_renameFields_new {m : Int → Option Int} (fs seen : List Int) (x y : Int) (hx : m x = some y) (hinj : ∀ z, m z = some y → z = x) (hy : y ∉ fs) :
    (renameFields m seen fs).1.count y ≤ 1 := by
  induction fs generalizing seen with
  | nil => simp [renameFields]
  | cons z fs ih =>
    have hy' : y ∉ fs := fun h => hy (List.mem_cons_of_mem _ h)
    have hzy : z ≠ y := fun h => hy (by simp [h])
    unfold renameFields
    split
    · simp only
      rw [List.count_cons_of_ne hzy]
      exact ih _ hy'
    · next w hw =>
      split
      · simp only
        rw [List.count_cons_of_ne hzy]
        exact ih _ hy'
      · simp only
        by_cases hwy : w = y
        · subst hwy
          have hzx := hinj z hw
          subst hzx
          have := renameFields_old fs (z :: seen) z w hx hinj hy' (by simp)
          rw [List.count_cons_self, List.count_eq_zero.mpr this]
          omega
        · rw [List.count_cons_of_ne hwy]
          exact ih _ hy'

theorem flatMap_reverse_count (l : List File) (x : Int) : (l.reverse.flatMap (·.2)).count x = (l.flatMap (·.2)).count x := by
  induction l with
  | nil => rfl
  | cons f l ih =>
    rw [List.reverse_cons, List.flatMap_append, List.count_append, ih]
    simp only [List.flatMap_cons, List.flatMap_nil, List.append_nil, List.count_append]
    omega

theorem count_retain (schema : List Int) (l : List File) (x : Int) : ((retain schema l).flatMap (·.2)).count x ≤ (l.flatMap (·.2)).count x := by
  induction l with
  | nil => exact Nat.le_refl _
  | cons f l ih =>
    unfold retain at ih ⊢
    rw [List.filter_cons]
    split
    · rw [List.flatMap_cons, List.flatMap_cons, List.count_append, List.count_append]
      omega
    · rw [List.flatMap_cons, List.count_append]
      omega

theorem holders_length (l : List File) (x : Int) : (holders l x).length ≤ (l.flatMap (·.2)).count x := by
  induction l with
  | nil => exact Nat.le_refl _
  | cons f l ih =>
    rw [holders_cons, List.flatMap_cons, List.count_append, List.length_append]
    split
    next h =>
      have := List.count_pos_iff.mpr (List.contains_iff_mem.mp h)
      simp only [List.length_cons, List.length_nil]
      omega
    · simp only [List.length_nil]
      omega

end Verif.Fix
