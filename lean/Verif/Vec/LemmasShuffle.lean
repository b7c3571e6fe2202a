import Verif.Vec.Spec
namespace Verif.Vec
variable {V C : Type}

theorem runs_flat (l : List (SRow V)) : (runs l).flatMap Prod.snd = l := by
  induction l with
  | nil => rfl
  | cons r rs ih =>
    rw [runs]
    cases h : runs rs with
    | nil => rw [h] at ih; simp at ih; simp [← ih]
    | cons pg gs =>
      obtain ⟨p, g⟩ := pg
      rw [h] at ih
      simp only
      split
      · simp only [List.flatMap_cons] at ih ⊢
        rw [List.cons_append, ih]
      · simp only [List.flatMap_cons] at ih ⊢
        rw [ih]; rfl

theorem runs_val (l : List (SRow V)) : ∀ pg ∈ runs l, ∀ r ∈ pg.2, r.val = pg.1 := by
  induction l with
  | nil => intro pg h; cases h
  | cons r rs ih =>
    intro pg hpg x hx
    rw [runs] at hpg
    cases h : runs rs with
    | nil =>
      rw [h] at hpg
      simp only [List.mem_singleton] at hpg
      subst hpg
      simp only [List.mem_singleton] at hx
      subst hx; rfl
    | cons qg gs =>
      obtain ⟨p, g⟩ := qg
      rw [h] at hpg ih
      simp only at hpg
      split at hpg
      · rename_i heq
        rcases List.mem_cons.1 hpg with rfl | hpg
        · rcases List.mem_cons.1 hx with rfl | hx
          · exact heq.symm
          · exact ih (p, g) List.mem_cons_self x hx
        · exact ih pg (List.mem_cons_of_mem _ hpg) x hx
      · rcases List.mem_cons.1 hpg with rfl | hpg
        · simp only [List.mem_singleton] at hx
          subst hx; rfl
        · exact ih pg hpg x hx

theorem pushRun_fold {α : Type} : ∀ (gs : List (Nat × List α)) (bufs : List (List α)), (∀ pg ∈ gs, pg.1 < bufs.length) →
    ∃ out, gs.foldlM pushRun bufs = some out ∧ out.length = bufs.length ∧
      ∀ p b, bufs[p]? = some b → out[p]? = some (b ++ (gs.filter (fun pg => pg.1 == p)).flatMap Prod.snd) := by
  intro gs
  induction gs with
  | nil =>
    intro bufs _
    exact ⟨bufs, rfl, rfl, by intro p b hb; simpa using hb⟩
  | cons pg gs ih =>
    intro bufs hlt
    have h1 := hlt pg List.mem_cons_self
    obtain ⟨out, ho, hl, hp⟩ := ih (bufs.modify pg.1 (· ++ pg.2)) (by
      intro qg hq
      rw [List.length_modify]
      exact hlt qg (List.mem_cons_of_mem _ hq))
    refine ⟨out, ?_, by rw [hl, List.length_modify], ?_⟩
    · rw [List.foldlM_cons, pushRun, if_pos h1]
      exact ho
    · intro p b hb
      by_cases hpp : pg.1 = p
      · subst hpp
        have := hp pg.1 (b ++ pg.2) (by rw [List.getElem?_modify_eq, hb]; rfl)
        rw [this, List.filter_cons_of_pos (by simp), List.flatMap_cons, List.append_assoc]
      · have := hp p b (by rw [List.getElem?_modify, hb]; simp [hpp])
        rw [this, List.filter_cons_of_neg (by simpa using hpp)]

theorem runs_filter (l : List (SRow V)) (p : Nat) :
    ((runs l).filter (fun pg => pg.1 == p)).flatMap Prod.snd = l.filter (fun r => r.val == p) := by
  have hv := runs_val l
  have hf := runs_flat l
  generalize runs l = gs at hv hf
  subst hf
  induction gs with
  | nil => rfl
  | cons pg gs ih =>
    have ih := ih (fun qg hq => hv qg (List.mem_cons_of_mem _ hq))
    rw [List.flatMap_cons, List.filter_append, ← ih]
    by_cases hp : pg.1 = p
    · rw [List.filter_cons_of_pos (by simpa using hp), List.flatMap_cons]
      congr 1
      symm
      rw [List.filter_eq_self]
      intro r hr
      rw [hv pg List.mem_cons_self r hr]
      simpa using hp
    · rw [List.filter_cons_of_neg (by simpa using hp)]
      have : pg.2.filter (fun r => r.val == p) = [] := by
        rw [List.filter_eq_nil_iff]
        intro r hr
        rw [hv pg List.mem_cons_self r hr]
        simpa using hp
      rw [this]; rfl

theorem sortBatch_spec {n : Nat} {batch : List (SRow V)} (h : ∀ r ∈ batch, r.val < n) :
    ∃ out, sortBatch n batch = some out ∧ out.length = n ∧
      ∀ p, p < n → ∃ b, out[p]? = some b ∧ b.Perm (batch.filter (fun r => r.val == p)) := by
  have hne : ∀ pg ∈ runs (sortBy SRow.key batch), pg.1 < n := by
    intro pg hpg
    have hv := runs_val _ pg hpg
    have hmem : ∀ r ∈ pg.2, r ∈ batch := by
      intro r hr
      have : r ∈ (runs (sortBy SRow.key batch)).flatMap Prod.snd := List.mem_flatMap.2 ⟨pg, hpg, hr⟩
      rw [runs_flat] at this
      exact (mem_sortBy _).1 this
    have hnz : pg.2 ≠ [] := by
      generalize sortBy SRow.key batch = l at hpg
      clear hv hmem
      induction l with
      | nil => cases hpg
      | cons r rs ih =>
        rw [runs] at hpg
        cases hh : runs rs with
        | nil =>
          rw [hh] at hpg
          simp only [List.mem_singleton] at hpg
          subst hpg
          exact List.cons_ne_nil _ _
        | cons qg gs =>
          obtain ⟨q, g⟩ := qg
          rw [hh] at hpg ih
          simp only at hpg
          split at hpg
          · rcases List.mem_cons.1 hpg with rfl | hpg
            · exact List.cons_ne_nil _ _
            · exact ih (List.mem_cons_of_mem _ hpg)
          · rcases List.mem_cons.1 hpg with rfl | hpg
            · exact List.cons_ne_nil _ _
            · exact ih hpg
    obtain ⟨r, hr⟩ := List.exists_mem_of_ne_nil _ hnz
    rw [← hv r hr]
    exact h r (hmem r hr)
  obtain ⟨out, ho, hl, hp⟩ := pushRun_fold (runs (sortBy SRow.key batch)) (List.replicate n []) (by
    intro pg hpg
    rw [List.length_replicate]
    exact hne pg hpg)
  refine ⟨out, ho, by rw [hl, List.length_replicate], ?_⟩
  intro p hpn
  refine ⟨_, hp p [] (by rw [List.getElem?_replicate, if_pos hpn]), ?_⟩
  rw [List.nil_append, runs_filter]
  exact (sortBy_perm _ _).filter _

/-- The shuffler has seen the rows `seen`. -/
structure ShufOk (n : Nat) (seen : List (SRow V)) (s : Shuf V) : Prop where
  bufs : s.bufs.length = n
  files : s.files.length = n
  sizes : s.sizes.length = n
  size : ∀ p, p < n → ∃ f, s.files[p]? = some f ∧ s.sizes[p]? = some f.length
  perm : ∀ p, p < n → ∃ f b, s.files[p]? = some f ∧ s.bufs[p]? = some b ∧ (f ++ b).Perm (seen.filter (fun r => r.val == p))

theorem ShufOk.init (n : Nat) : ShufOk n [] (Shuf.init (V := V) n) := by
  refine ⟨by simp [Shuf.init], by simp [Shuf.init], by simp [Shuf.init], ?_, ?_⟩
  · intro p hp
    exact ⟨[], by simp [Shuf.init, hp], by simp [Shuf.init, hp]⟩
  · intro p hp
    exact ⟨[], [], by simp [Shuf.init, hp], by simp [Shuf.init, hp], List.Perm.refl _⟩

theorem ShufOk.flush {n : Nat} {seen : List (SRow V)} {s : Shuf V} (h : ShufOk n seen s) : ShufOk n seen s.flush := by
  refine ⟨by simp [Shuf.flush, h.bufs], by simp [Shuf.flush, h.bufs, h.files], by simp [Shuf.flush, h.bufs, h.sizes], ?_, ?_⟩
  · intro p hp
    obtain ⟨f, h1, h2⟩ := h.size p hp
    obtain ⟨f', b, h3, h4, _⟩ := h.perm p hp
    exact ⟨f ++ b, by simp [Shuf.flush, List.getElem?_zipWith, h1, h4], by simp [Shuf.flush, List.getElem?_zipWith, h2, h4]⟩
  · intro p hp
    obtain ⟨f, b, h3, h4, h5⟩ := h.perm p hp
    exact ⟨f ++ b, [], by simp [Shuf.flush, List.getElem?_zipWith, h3, h4], by simp [Shuf.flush, h4], by simpa using h5⟩

theorem ShufOk.push {n bs : Nat} {seen : List (SRow V)} {s : Shuf V} (h : ShufOk n seen s) {batch : List (SRow V)}
    (hv : ∀ r ∈ batch, r.val < n) (ho : s.opened = true ∨ batch ≠ []) :
    ∃ s', s.push n bs batch = some s' ∧ s'.opened = true ∧ ShufOk n (seen ++ batch) s' := by
  obtain ⟨out, h1, h2, h3⟩ := sortBatch_spec hv
  have hok : ShufOk n (seen ++ batch) { s with bufs := List.zipWith (· ++ ·) s.bufs out, counter := s.counter + 1, opened := true } := by
    refine ⟨by simp [h.bufs, h2], h.files, h.sizes, h.size, ?_⟩
    intro p hp
    obtain ⟨f, b, h4, h5, h6⟩ := h.perm p hp
    obtain ⟨b', h7, h8⟩ := h3 p hp
    refine ⟨f, b ++ b', h4, by simp [List.getElem?_zipWith, h5, h7], ?_⟩
    rw [← List.append_assoc, List.filter_append]
    exact h6.append h8
  have hc : ¬ (s.opened = false ∧ (List.zipWith (· ++ ·) s.bufs out).all List.isEmpty) := by
    rintro ⟨e1, e2⟩
    rcases ho with ho | ho
    · rw [e1] at ho; cases ho
    · obtain ⟨r, hr⟩ := List.exists_mem_of_ne_nil _ ho
      have hp := hv r hr
      obtain ⟨f, b, h4, h5, h6⟩ := h.perm r.val hp
      obtain ⟨b', h7, h8⟩ := h3 r.val hp
      have hz : (List.zipWith (· ++ ·) s.bufs out)[r.val]? = some (b ++ b') := by simp [List.getElem?_zipWith, h5, h7]
      have hb := List.all_eq_true.1 e2 _ (List.mem_of_getElem? hz)
      have hrb : r ∈ b' := h8.mem_iff.2 (List.mem_filter.2 ⟨hr, by simp⟩)
      rw [List.isEmpty_iff] at hb
      have : r ∈ b ++ b' := List.mem_append_right _ hrb
      rw [hb] at this
      cases this
  unfold Shuf.push
  rw [h1]
  simp only [if_neg hc]
  split
  · exact ⟨_, rfl, rfl, hok.flush⟩
  · exact ⟨_, rfl, rfl, hok⟩

theorem ShufOk.pushAll {n bs : Nat} : ∀ (batches : List (List (SRow V))) {seen : List (SRow V)} {s : Shuf V}, ShufOk n seen s →
    (∀ b ∈ batches, ∀ r ∈ b, r.val < n) → (s.opened = true ∨ ∀ b ∈ batches, b ≠ []) →
    ∃ s', batches.foldlM (Shuf.push n bs) s = some s' ∧ (batches ≠ [] → s'.opened = true) ∧ ShufOk n (seen ++ batches.flatten) s' := by
  intro batches
  induction batches with
  | nil =>
    intro seen s h _ _
    exact ⟨s, rfl, by intro h; exact absurd rfl h, by simpa using h⟩
  | cons b bs' ih =>
    intro seen s h hv ho
    obtain ⟨s1, h1, h2, h3⟩ := h.push (bs := bs) (hv b List.mem_cons_self) (ho.imp id (fun h => h b List.mem_cons_self))
    obtain ⟨s2, h4, h5, h6⟩ := ih h3 (fun b' hb' => hv b' (List.mem_cons_of_mem _ hb')) (Or.inl h2)
    refine ⟨s2, ?_, ?_, by rw [List.flatten_cons, ← List.append_assoc]; exact h6⟩
    · rw [List.foldlM_cons, h1]; exact h4
    · intro _
      cases bs' with
      | nil =>
        rw [List.foldlM_nil] at h4
        cases h4
        exact h2
      | cons x xs => exact h5 (List.cons_ne_nil _ _)

/-- What a reader gives for the rows `data`. -/
def ReaderOk (c : Cfg V C) (data : List (Addr × V)) (r : Reader V) : Prop :=
  ∀ p, p < c.nparts → ∃ sz, r.size p = some sz ∧
    (sz = 0 → ∀ x ∈ data, c.pid x.2 ≠ p) ∧
    (0 < sz → ∃ rows, r.read p = some (rows, decide (c.nparts = 1)) ∧
      rows.Perm ((data.filter (fun x => c.pid x.2 == p)).map (fun x => (x.1, c.fresh x.2))))

theorem val_lt {c : Cfg V C} (hc : c.Valid) (x : Addr × V) : (c.transformRow x).val < c.nparts := by
  simp only [SRow.val, Cfg.transformRow]
  cases h : c.part (c.norm x.2) with
  | none => exact hc.pos
  | some p => exact hc.part _ _ h

theorem transform_eq {c : Cfg V C} (hc : c.Valid) (l : List (Addr × V)) : c.transform l = l.map c.transformRow := by
  unfold Cfg.transform
  rw [List.filter_eq_self]
  intro r hr
  obtain ⟨x, _, rfl⟩ := List.mem_map.1 hr
  exact decide_eq_true (val_lt hc x)

theorem transform_filter (c : Cfg V C) (l : List (Addr × V)) (p : Nat) :
    ((l.map c.transformRow).filter (fun r => r.val == p)).map (fun x => (x.id, x.vec)) =
      (l.filter (fun x => c.pid x.2 == p)).map (fun x => (x.1, c.fresh x.2)) := by
  rw [List.filter_map, List.map_map]
  rfl

theorem shuffleData_spec {c : Cfg V C} (hc : c.Valid) (data : List (Addr × V)) : ∃ r, c.shuffleData data = some r ∧ ReaderOk c data r := by
  unfold Cfg.shuffleData
  have hs := hc.split data
  have hb := hc.batches data
  cases hsp : c.split data with
  | nil =>
    rw [hsp] at hs
    refine ⟨_, rfl, ?_⟩
    intro p hp
    refine ⟨0, by simp [Reader.size, hp], ?_, by intro h; cases h⟩
    intro _ x hx
    rw [← hs] at hx
    cases hx
  | cons b bs =>
    rw [hsp] at hs hb
    simp only
    have ht : ((b :: bs).map c.transform).flatten = data.map c.transformRow := by
      rw [← hs, List.map_flatten]
      congr 1
      exact List.map_congr_left (fun x _ => transform_eq hc x)
    unfold shuffle
    by_cases h1 : c.nparts = 1
    · rw [if_pos h1, ht]
      refine ⟨_, rfl, ?_⟩
      intro p hp
      refine ⟨1, rfl, (by intro h; cases h), ?_⟩
      intro _
      refine ⟨(data.map c.transformRow).map (fun x => (x.id, x.vec)), by simp only [Reader.read, h1, decide_true], ?_⟩
      have hall : data.filter (fun x => c.pid x.2 == p) = data := by
        rw [List.filter_eq_self]
        intro x _
        have := val_lt hc x
        simp only [SRow.val, Cfg.transformRow] at this
        simp only [Cfg.pid, beq_iff_eq]
        omega
      rw [hall, List.map_map]
      exact List.Perm.refl _
    · rw [if_neg h1]
      obtain ⟨s, h2, h3, h4⟩ := ShufOk.pushAll (bs := c.bufferSize) ((b :: bs).map c.transform) (ShufOk.init c.nparts)
        (by
          intro l hl r hr
          obtain ⟨x, _, rfl⟩ := List.mem_map.1 hl
          rw [transform_eq hc] at hr
          obtain ⟨y, _, rfl⟩ := List.mem_map.1 hr
          exact val_lt hc y)
        (Or.inr (by
          intro l hl
          obtain ⟨x, hx, rfl⟩ := List.mem_map.1 hl
          rw [transform_eq hc]
          intro e
          exact hb x hx (List.map_eq_nil_iff.1 e)))
      rw [h2]
      simp only
      rw [if_neg (by rw [h3 (by simp)]; simp)]
      refine ⟨_, rfl, ?_⟩
      rw [List.nil_append, ht] at h4
      have h5 := h4.flush
      intro p hp
      obtain ⟨f, h6, h7⟩ := h5.size p hp
      obtain ⟨f', b', h8, h9, h10⟩ := h5.perm p hp
      rw [h6] at h8
      cases h8
      have hb' : b' = [] := by
        simp only [Shuf.flush, List.getElem?_map] at h9
        cases hh : s.bufs[p]? with
        | none => rw [hh] at h9; cases h9
        | some z => rw [hh] at h9; cases h9; rfl
      subst hb'
      rw [List.append_nil] at h10
      refine ⟨f.length, h7, ?_, ?_⟩
      · intro h0 x hx he
        rw [List.length_eq_zero_iff.1 h0] at h10
        have := h10.symm.eq_nil
        rw [List.filter_eq_nil_iff] at this
        exact this _ (List.mem_map_of_mem hx) (by simpa [SRow.val, Cfg.transformRow, Cfg.pid] using he)
      · intro _
        refine ⟨f.map (fun x => (x.id, x.vec)), by simp only [Reader.read, h6, Option.map_some, h1, decide_false], ?_⟩
        rw [← transform_filter]
        exact h10.map _

end Verif.Vec
