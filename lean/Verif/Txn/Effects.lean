import Verif.Txn.Built
/-!
# Effect of each operation on the fragment list
-/
namespace Verif.Txn

def ids (fs : List Frag) : List Nat := fs.map (·.id)

theorem mem_ids {fs : List Frag} {i : Nat} : i ∈ ids fs ↔ ∃ f ∈ fs, f.id = i := by
  unfold ids; rw [List.mem_map]

theorem mem_ids_of {fs : List Frag} {f : Frag} (h : f ∈ fs) : f.id ∈ ids fs := mem_ids.2 ⟨f, h, rfl⟩

theorem ids_append (a b : List Frag) : ids (a ++ b) = ids a ++ ids b := List.map_append

theorem ids_perm {a b : List Frag} (h : a.Perm b) : (ids a).Perm (ids b) := h.map _

theorem nodup_ids_eq {fs : List Frag} (h : (ids fs).Nodup) {f g : Frag} (hf : f ∈ fs) (hg : g ∈ fs)
    (he : f.id = g.id) : f = g := by
  induction fs with
  | nil => simp at hf
  | cons x fs ih =>
    unfold ids at h
    rw [List.map_cons, List.nodup_cons] at h
    rcases List.mem_cons.1 hf with e1 | h1 <;> rcases List.mem_cons.1 hg with e2 | h2
    · rw [e1, e2]
    · rw [e1] at he; exact (h.1 (List.mem_map.2 ⟨g, h2, he.symm⟩)).elim
    · rw [e2] at he; exact (h.1 (List.mem_map.2 ⟨f, h1, he⟩)).elim
    · exact ih h.2 h1 h2

theorem nodup_ids_filter {fs : List Frag} (p : Frag → Bool) (h : (ids fs).Nodup) : (ids (fs.filter p)).Nodup :=
  h.sublist (List.Sublist.map _ List.filter_sublist)

/-! ## New fragment ids -/

theorem withIds_zero {fs : List Frag} (h : ∀ f ∈ fs, f.id = 0) (n : Nat) :
    ids (withIds fs n).1 = List.range' n fs.length ∧ (withIds fs n).2 = n + fs.length ∧
      ∀ x ∈ (withIds fs n).1, ∃ f ∈ fs, x = { f with id := x.id } := by
  induction fs generalizing n with
  | nil => simp [withIds, ids]
  | cons f fs ih =>
    obtain ⟨h1, h2, h3⟩ := ih (fun g hg => h g (List.mem_cons_of_mem _ hg)) (n + 1)
    unfold withIds
    rw [if_pos (h f List.mem_cons_self)]
    dsimp only
    refine ⟨?_, by rw [h2, List.length_cons]; omega, ?_⟩
    · unfold ids at *
      rw [List.map_cons, h1, List.length_cons, List.range'_succ]
    · intro x hx
      rcases List.mem_cons.1 hx with rfl | hx
      · exact ⟨f, List.mem_cons_self, rfl⟩
      · obtain ⟨g, hg, he⟩ := h3 x hx
        exact ⟨g, List.mem_cons_of_mem _ hg, he⟩

theorem withIds_nonzero {fs : List Frag} (h : ∀ f ∈ fs, f.id ≠ 0) (n : Nat) : withIds fs n = (fs, n) := by
  induction fs generalizing n with
  | nil => rfl
  | cons f fs ih =>
    unfold withIds
    rw [if_neg (h f List.mem_cons_self), ih (fun g hg => h g (List.mem_cons_of_mem _ hg))]

theorem assignRowIds_ok {fs r : List Frag} {n n' : Nat} (h : assignRowIds fs n = .ok (r, n')) :
    ids r = ids fs ∧ n ≤ n' ∧ rowIdsOf r = List.range' n (n' - n) ∧ (∀ f ∈ r, f.rowIds.isSome = true) ∧
      (∀ x ∈ r, ∃ f ∈ fs, x = { f with rowIds := x.rowIds }) := by
  induction fs generalizing n r n' with
  | nil =>
    simp only [assignRowIds, Except.ok.injEq, Prod.mk.injEq] at h
    obtain ⟨h1, h2⟩ := h
    subst h1; subst h2
    simp [ids, rowIdsOf]
  | cons f fs ih =>
    unfold assignRowIds at h
    split at h
    · cases h
    · rename_i p hp
      split at h
      · cases h
      · rename_i r1 n1 he
        simp only [Except.ok.injEq, Prod.mk.injEq] at h
        obtain ⟨h1, h2⟩ := h
        subst h1; subst h2
        obtain ⟨i1, i2, i3, i4, i5⟩ := ih he
        refine ⟨?_, by omega, ?_, ?_, ?_⟩
        · unfold ids at *; rw [List.map_cons, List.map_cons, i1]
        · unfold rowIdsOf at *
          rw [List.flatMap_cons, i3]
          simp only [Option.getD_some]
          rw [List.range'_append_1]
          congr 1; omega
        · intro g hg
          rcases List.mem_cons.1 hg with rfl | hg
          · rfl
          · exact i4 g hg
        · intro x hx
          rcases List.mem_cons.1 hx with rfl | hx
          · exact ⟨f, List.mem_cons_self, rfl⟩
          · obtain ⟨g, hg, he⟩ := i5 x hx
            exact ⟨g, List.mem_cons_of_mem _ hg, he⟩

/-- Assigned row ids are the next numbers, in order. -/
theorem assignIf_ok {fs r : List Frag} {nr nr' : Option Nat} (h : assignIf nr fs = .ok (r, nr')) :
    ids r = ids fs ∧ (∀ x ∈ r, ∃ f ∈ fs, x = { f with rowIds := x.rowIds }) ∧
    (nr = none → r = fs ∧ nr' = none) ∧
    (∀ n, nr = some n → ∃ n', nr' = some n' ∧ n ≤ n' ∧ rowIdsOf r = List.range' n (n' - n) ∧
      ∀ f ∈ r, f.rowIds.isSome = true) := by
  unfold assignIf at h
  split at h
  · simp only [Except.ok.injEq, Prod.mk.injEq] at h
    obtain ⟨h1, h2⟩ := h
    subst h1; subst h2
    exact ⟨rfl, fun x hx => ⟨x, hx, rfl⟩, fun _ => ⟨rfl, rfl⟩, fun n h => by cases h⟩
  · rename_i n
    split at h
    · cases h
    · rename_i r1 n1 he
      simp only [Except.ok.injEq, Prod.mk.injEq] at h
      obtain ⟨h1, h2⟩ := h
      subst h1; subst h2
      obtain ⟨i1, i2, i3, i4, i5⟩ := assignRowIds_ok he
      refine ⟨i1, i5, (fun h => by cases h), ?_⟩
      intro k hk
      cases hk
      exact ⟨n1, rfl, i2, i3, i4⟩

/-! ## Rewrites -/

theorem contiguous_true {fs os : List Frag} (h : contiguous fs os = some true) :
    os.length ≤ fs.length ∧ ids (fs.take os.length) = ids os := by
  induction os generalizing fs with
  | nil => simp [ids]
  | cons o os ih =>
    cases fs with
    | nil => simp [contiguous] at h
    | cons f fs =>
      unfold contiguous at h
      split at h
      · simp at h
      · rename_i hne
        obtain ⟨h1, h2⟩ := ih h
        refine ⟨by simp only [List.length_cons]; omega, ?_⟩
        unfold ids at *
        rw [List.length_cons, List.take_succ_cons, List.map_cons, List.map_cons, h2]
        congr 1
        exact Decidable.not_not.1 hne

theorem filter_middle {a b c : List Frag} (h : (ids (a ++ b ++ c)).Nodup) :
    (a ++ b ++ c).filter (fun f => !(ids b).contains f.id) = a ++ c := by
  rw [ids_append, ids_append, List.nodup_append, List.nodup_append] at h
  obtain ⟨⟨_, _, hab⟩, _, habc⟩ := h
  rw [List.filter_append, List.filter_append]
  have ha : a.filter (fun f => !(ids b).contains f.id) = a := by
    rw [List.filter_eq_self]
    intro f hf
    simp only [Bool.not_eq_true', List.contains_eq_mem, decide_eq_false_iff_not]
    intro hm
    exact hab f.id (mem_ids_of hf) f.id hm rfl
  have hc : c.filter (fun f => !(ids b).contains f.id) = c := by
    rw [List.filter_eq_self]
    intro f hf
    simp only [Bool.not_eq_true', List.contains_eq_mem, decide_eq_false_iff_not]
    intro hm
    exact habc f.id (List.mem_append_right _ hm) f.id (mem_ids_of hf) rfl
  have hb : b.filter (fun f => !(ids b).contains f.id) = [] := by
    rw [List.filter_eq_nil_iff]
    intro f hf
    have := mem_ids_of hf
    simp [this]
  rw [ha, hb, hc, List.append_nil]

/-- One rewritten group: the old fragments leave, the new ones come. -/
theorem rewriteGroup_perm {frags fs : List Frag} {g : Group} {n n' : Nat} (hnd : (ids frags).Nodup)
    (hnew : ∀ f ∈ g.new, f.id ≠ 0) (h : rewriteGroup frags g n = .ok (fs, n')) :
    fs.Perm (frags.filter (fun f => !(ids g.old).contains f.id) ++ g.new) ∧ n' = n ∧
      ∃ o ∈ g.old, o.id ∈ ids frags := by
  unfold rewriteGroup at h
  split at h
  · cases h
  · rename_i o os hold
    split at h
    · rename_i hany
      dsimp only at h
      rw [withIds_nonzero hnew] at h
      have hlt : frags.findIdx (fun f => f.id == o.id) < frags.length := by
        rw [List.findIdx_lt_length]
        obtain ⟨x, hx, he⟩ := List.any_eq_true.1 hany
        exact ⟨x, hx, he⟩
      have hget := List.findIdx_getElem (xs := frags) (p := fun f => f.id == o.id) (w := hlt)
      have hin : o.id ∈ ids frags := by
        obtain ⟨x, hx, he⟩ := List.any_eq_true.1 hany
        exact mem_ids.2 ⟨x, hx, by simpa using he⟩
      generalize hst : frags.findIdx (fun f => f.id == o.id) = start at *
      split at h
      · cases h
      · rename_i hc
        simp only [Except.ok.injEq, Prod.mk.injEq] at h
        obtain ⟨h1, h2⟩ := h
        subst h1; subst h2
        obtain ⟨hl, hi⟩ := contiguous_true hc
        have hsplit : frags = frags.take start ++ (frags.drop start).take (os.length + 1) ++ frags.drop (start + (os.length + 1)) := by
          rw [List.append_assoc, ← List.drop_drop, List.take_append_drop, List.take_append_drop]
        have hmid : ids ((frags.drop start).take (os.length + 1)) = ids g.old := by
          rw [hold, List.drop_eq_getElem_cons hlt, List.take_succ_cons]
          unfold ids at *
          rw [List.map_cons, List.map_cons, hi]
          congr 1
          simpa using hget
        have hfil := filter_middle (hsplit ▸ hnd)
        rw [← hsplit, hmid] at hfil
        rw [hfil]
        have hlen : g.old.length = os.length + 1 := by rw [hold]; rfl
        rw [hlen]
        refine ⟨?_, rfl, o, by rw [hold]; exact List.mem_cons_self, hin⟩
        rw [List.append_assoc, List.append_assoc]
        exact List.Perm.append_left _ List.perm_append_comm
      · rename_i hc
        simp only [Except.ok.injEq, Prod.mk.injEq] at h
        obtain ⟨h1, h2⟩ := h
        subst h1; subst h2
        exact ⟨List.Perm.refl _, rfl, o, by rw [hold]; exact List.mem_cons_self, hin⟩
    · cases h

theorem filter_filter_contains (frags : List Frag) (a b : List Nat) :
    (frags.filter (fun f => !a.contains f.id)).filter (fun f => !b.contains f.id) =
      frags.filter (fun f => !(a ++ b).contains f.id) := by
  rw [List.filter_filter]
  congr 1
  funext f
  by_cases h1 : f.id ∈ a <;> by_cases h2 : f.id ∈ b <;> simp [h1, h2]

/-- All groups: exactly the named old fragments leave, exactly the new ones come. -/
theorem rewriteFrags_perm {gs : List Group} {frags fs : List Frag} {n n' : Nat}
    (hnd : (ids frags).Nodup) (hnew0 : ∀ g ∈ gs, ∀ f ∈ g.new, f.id ≠ 0)
    (hnnd : (gs.flatMap (fun g => ids g.new)).Nodup)
    (hdis : ∀ g ∈ gs, ∀ f ∈ g.new, f.id ∉ ids frags)
    (hold : ∀ g ∈ gs, ∀ f ∈ g.new, ∀ g' ∈ gs, f.id ∉ ids g'.old)
    (h : rewriteFrags gs frags n = .ok (fs, n')) :
    fs.Perm (frags.filter (fun f => !(gs.flatMap (fun g => ids g.old)).contains f.id) ++ gs.flatMap (·.new)) ∧
      (ids fs).Nodup := by
  induction gs generalizing frags n with
  | nil =>
    simp only [rewriteFrags, Except.ok.injEq, Prod.mk.injEq] at h
    obtain ⟨h1, _⟩ := h
    subst h1
    refine ⟨?_, hnd⟩
    rw [List.flatMap_nil, List.flatMap_nil, List.append_nil, List.filter_eq_self.2 (by intro a _; rfl)]
  | cons g gs ih =>
    unfold rewriteFrags at h
    split at h
    · cases h
    · rename_i fs1 n1 he
      obtain ⟨hp, _, _⟩ := rewriteGroup_perm hnd (hnew0 g List.mem_cons_self) he
      rw [List.flatMap_cons, List.nodup_append] at hnnd
      obtain ⟨hn1, hn2, hn3⟩ := hnnd
      have hnd1 : (ids fs1).Nodup := by
        rw [(ids_perm hp).nodup_iff, ids_append, List.nodup_append]
        refine ⟨nodup_ids_filter _ hnd, hn1, ?_⟩
        intro a ha b hb hab
        subst hab
        obtain ⟨f, hf, he⟩ := mem_ids.1 hb
        obtain ⟨f', hf', he'⟩ := mem_ids.1 ha
        rw [← he] at he'
        apply hdis g List.mem_cons_self f hf
        rw [← he']
        exact mem_ids_of (List.mem_filter.1 hf').1
      have hdis1 : ∀ g' ∈ gs, ∀ f ∈ g'.new, f.id ∉ ids fs1 := by
        intro g' hg' f hf hm
        rw [(ids_perm hp).mem_iff, ids_append, List.mem_append] at hm
        rcases hm with hm | hm
        · obtain ⟨x, hx, he⟩ := mem_ids.1 hm
          apply hdis g' (List.mem_cons_of_mem _ hg') f hf
          rw [← he]
          exact mem_ids_of (List.mem_filter.1 hx).1
        · exact hn3 f.id hm f.id (List.mem_flatMap.2 ⟨g', hg', mem_ids_of hf⟩) rfl
      obtain ⟨ih1, ih2⟩ := ih hnd1 (fun g' hg' => hnew0 g' (List.mem_cons_of_mem _ hg')) hn2 hdis1
        (fun g1 h1 f hf g2 h2 => hold g1 (List.mem_cons_of_mem _ h1) f hf g2 (List.mem_cons_of_mem _ h2)) h
      refine ⟨?_, ih2⟩
      refine ih1.trans ?_
      rw [List.flatMap_cons, List.flatMap_cons]
      have hp2 := hp.filter (fun f => !(gs.flatMap (fun g => ids g.old)).contains f.id)
      rw [List.filter_append, filter_filter_contains] at hp2
      have hself : g.new.filter (fun f => !(gs.flatMap (fun g => ids g.old)).contains f.id) = g.new := by
        rw [List.filter_eq_self]
        intro f hf
        simp only [Bool.not_eq_true', List.contains_eq_mem, decide_eq_false_iff_not]
        intro hm
        obtain ⟨g', hg', hm'⟩ := List.mem_flatMap.1 hm
        exact hold g List.mem_cons_self f hf g' (List.mem_cons_of_mem _ hg') hm'
      rw [hself] at hp2
      rw [← List.append_assoc]
      exact hp2.append_right _

/-! ## Deletes and updates -/

theorem applyUpdated_cases (ups : List Frag) (f : Frag) :
    (applyUpdated ups f).id = f.id ∧ (applyUpdated ups f = f ∨ applyUpdated ups f ∈ ups) ∧
      (f.id ∉ ids ups → applyUpdated ups f = f) := by
  induction ups generalizing f with
  | nil => simp [applyUpdated]
  | cons u ups ih =>
    have hstep : applyUpdated (u :: ups) f = applyUpdated ups (if u.id = f.id then u else f) := rfl
    rw [hstep]
    split
    · rename_i he
      obtain ⟨h1, h2, h3⟩ := ih u
      refine ⟨by rw [h1, he], ?_, ?_⟩
      · rcases h2 with h2 | h2
        · rw [h2]; exact Or.inr List.mem_cons_self
        · exact Or.inr (List.mem_cons_of_mem _ h2)
      · intro hn
        exact absurd (mem_ids.2 ⟨u, List.mem_cons_self, he⟩) hn
    · obtain ⟨h1, h2, h3⟩ := ih f
      refine ⟨h1, ?_, ?_⟩
      · rcases h2 with h2 | h2
        · exact Or.inl h2
        · exact Or.inr (List.mem_cons_of_mem _ h2)
      · intro hn
        exact h3 (fun hm => hn (List.mem_cons_of_mem _ hm))

theorem applyFirstUpdated_cases (ups : List Frag) (f : Frag) :
    (applyFirstUpdated ups f).id = f.id ∧ (applyFirstUpdated ups f = f ∨ applyFirstUpdated ups f ∈ ups) ∧
      (f.id ∉ ids ups → applyFirstUpdated ups f = f) := by
  unfold applyFirstUpdated
  cases h : ups.find? (fun u => u.id == f.id) with
  | none => simp
  | some u =>
    have hu := List.mem_of_find?_eq_some h
    have he : u.id = f.id := by simpa using List.find?_some h
    simp only [Option.getD_some]
    exact ⟨he, Or.inr hu, fun hn => absurd (mem_ids.2 ⟨u, hu, he⟩) hn⟩

theorem map_ids_eq {fs : List Frag} {g : Frag → Frag} (h : ∀ f, (g f).id = f.id) : ids (fs.map g) = ids fs := by
  unfold ids; rw [List.map_map]; congr 1; funext f; exact h f

/-! ## Data replacement -/

theorem replaceFile_rows (f : Frag) (nf : File) : (replaceFile f nf).rows = f.rows := by
  unfold replaceFile
  dsimp only
  split <;> rfl

theorem replaceAll_ok {ex : List Frag} {rs : List (Nat × File)} {fs : List Frag}
    (h : replaceAll ex rs = .ok fs) :
    ids fs = rs.map (·.1) ∧ ∀ f ∈ fs, ∃ g ∈ ex, f.rows = g.rows := by
  induction rs generalizing fs with
  | nil =>
    simp only [replaceAll, Except.ok.injEq] at h
    subst h; simp [ids]
  | cons r rs ih =>
    obtain ⟨i, nf⟩ := r
    unfold replaceAll at h
    split at h
    · cases h
    · rename_i f hf
      dsimp only at h
      split at h
      · cases h
      · split at h
        · cases h
        · rename_i r1 he
          simp only [Except.ok.injEq] at h
          subst h
          obtain ⟨h1, h2⟩ := ih he
          have hid : f.id = i := by simpa using List.find?_some hf
          have hrows := replaceFile_rows f nf
          have hrid : (replaceFile f nf).id = f.id := by
            have := congrArg Frag.id hrows
            exact this
          refine ⟨?_, ?_⟩
          · unfold ids at *
            rw [List.map_cons, List.map_cons, h1, hrid, hid]
          · intro x hx
            rcases List.mem_cons.1 hx with rfl | hx
            · exact ⟨f, List.mem_of_find?_eq_some hf, hrows⟩
            · exact h2 x hx

/-! ## First free id -/

theorem firstFragId_eq {op : Op} {m : Manifest} (hop : ∀ a b c, op ≠ .overwrite a b c) :
    firstFragId op (some m) = match m.maxFragId with | some i => i + 1 | none => 0 := by
  unfold firstFragId
  cases hh : op with
  | overwrite a b c => exact absurd hh (hop a b c)
  | _ => rfl

theorem firstFragId_gt {op : Op} {m : Manifest} (hop : ∀ a b c, op ≠ .overwrite a b c)
    (hle : ∀ f ∈ m.frags, f.id ≤ m.maxFrag) {f : Frag} (hf : f ∈ m.frags) : f.id < firstFragId op (some m) := by
  rw [firstFragId_eq hop]
  unfold Manifest.maxFragId
  have hx := le_maxId hf
  have hy := hle f hf
  unfold maxId at hx
  by_cases hm : m.maxFrag = 0
  · rw [if_pos hm]
    cases e : (m.frags.map (·.id)).max? with
    | none =>
      rw [List.max?_eq_none_iff, List.map_eq_nil_iff] at e
      rw [e] at hf; simp at hf
    | some x => rw [e] at hx; simp only [Option.getD_some] at hx; simp only; omega
  · rw [if_neg hm]; simp only; omega

theorem firstFragId_gt_max {op : Op} {m : Manifest} (hop : ∀ a b c, op ≠ .overwrite a b c)
    (hm : m.maxFrag ≠ 0) : firstFragId op (some m) = m.maxFrag + 1 := by
  rw [firstFragId_eq hop]
  unfold Manifest.maxFragId
  rw [if_neg hm]

/-- The same when the recorded maximum is 0 but there is a fragment. -/
theorem firstFragId_ge {op : Op} {m : Manifest} (hop : ∀ a b c, op ≠ .overwrite a b c)
    (hm : m.maxFrag ≠ 0 ∨ m.frags ≠ []) : m.maxFrag + 1 ≤ firstFragId op (some m) := by
  by_cases h0 : m.maxFrag = 0
  · have hne : m.frags ≠ [] := hm.resolve_left (fun h => h h0)
    rw [firstFragId_eq hop]
    unfold Manifest.maxFragId
    rw [if_pos h0]
    cases hmax : (m.frags.map (·.id)).max? with
    | none => exact absurd (List.map_eq_nil_iff.1 (List.max?_eq_none_iff.1 hmax)) hne
    | some i => simp only; omega
  · rw [firstFragId_gt_max hop h0]; exact Nat.le_refl _

end Verif.Txn
