import Verif.Proj.Model

/-! # Lemmas about projections -/
namespace Verif.Proj

/-- The types of all fields can be decoded. -/
def supported (v : Ver) : Flds → Prop
  | .nil => True
  | .leaf _ t r => canDecode v t = true ∧ supported v r
  | .list _ c r => supported v c ∧ supported v r
  | .struct _ pv nk c r => (packedEnc v pv nk = true ∨ supported v c) ∧ supported v r

/-- The columns `cs` of the file hold what the entries of `xs` say. -/
def Matches (cols : List ColKind) : List (Nat × ColKind) → List Nat → Prop
  | [], [] => True
  | x :: xs, c :: cs => cols[c]? = some x.2 ∧ Matches cols xs cs
  | _, _ => False

theorem Matches.length {cols : List ColKind} :
    ∀ {xs : List (Nat × ColKind)} {cs : List Nat}, Matches cols xs cs → xs.length = cs.length
  | [], [], _ => rfl
  | _ :: _, _ :: _, h => by simp [Matches.length h.2]
  | [], _ :: _, h => h.elim
  | _ :: _, [], h => h.elim

theorem Matches.split {cols : List ColKind} :
    ∀ {xs ys : List (Nat × ColKind)} {cs : List Nat}, Matches cols (xs ++ ys) cs →
      ∃ as bs, cs = as ++ bs ∧ Matches cols xs as ∧ Matches cols ys bs
  | [], _, cs, h => ⟨[], cs, rfl, trivial, h⟩
  | _ :: _, _, [], h => h.elim
  | _ :: _, _, c :: _, h =>
    match Matches.split h.2 with
    | ⟨as, bs, e, h1, h2⟩ => ⟨c :: as, bs, by simp [e], ⟨h.1, h1⟩, h2⟩

theorem Matches.append {cols : List ColKind} :
    ∀ {xs ys : List (Nat × ColKind)} {as bs : List Nat}, Matches cols xs as → Matches cols ys bs →
      Matches cols (xs ++ ys) (as ++ bs)
  | [], _, [], _, _, h => h
  | _ :: _, _, _ :: _, _, h1, h2 => ⟨h1.1, Matches.append h1.2 h2⟩
  | [], _, _ :: _, _, h, _ => h.elim
  | _ :: _, _, [], _, h, _ => h.elim

theorem take1_ok {cols : List ColKind} {c : Nat} {k : ColKind} {cs : List Nat} (h : cols[c]? = some k) :
    take1 cols (c :: cs) = .ok (c, k, cs) := by simp [take1, h]

def ids (xs : List (Nat × ColKind)) : List Nat := xs.map (·.1)

theorem decode_spec {v : Ver} {cols : List ColKind} :
    ∀ (p : Flds) (cs more : List Nat), supported v p → Matches cols (encCols v p) cs →
      decode v cols p (cs ++ more) = .ok ((ids (encCols v p)).zip cs, more) := by
  intro p
  induction p with
  | nil =>
    intro cs more _ h
    cases cs with
    | nil => rfl
    | cons c cs => exact h.elim
  | leaf id t r ih =>
    intro cs more hs h
    cases cs with
    | nil => exact h.elim
    | cons c cs =>
      rw [decode.eq_def]
      simp only [hs.1, if_true, List.cons_append]
      rw [take1_ok h.1]
      simp only [bind, Except.bind]
      rw [ih cs more hs.2 h.2]
      rfl
  | list id ch r ih1 ih2 =>
    intro cs more hs h
    cases v with
    | v20 =>
      cases cs with
      | nil => exact h.elim
      | cons c cs =>
        obtain ⟨as, bs, e, ha, hb⟩ := Matches.split (xs := encCols .v20 ch) h.2
        subst e
        rw [decode.eq_def]
        simp only [List.cons_append]
        rw [take1_ok h.1]
        simp only [bind, Except.bind, List.append_assoc]
        rw [ih1 as (bs ++ more) hs.1 ha]
        simp only [if_true]
        rw [ih2 bs more hs.2 hb]
        simp [encCols, ids, List.zip_append, ha.length]
    | v21 =>
      obtain ⟨as, bs, e, ha, hb⟩ := Matches.split (xs := encCols .v21 ch) h
      subst e
      rw [decode.eq_def]
      simp only [bind, Except.bind, List.append_assoc]
      rw [ih1 as (bs ++ more) hs.1 ha]
      simp only
      rw [ih2 bs more hs.2 hb]
      simp [encCols, ids, List.zip_append, ha.length]
  | struct id pv nk ch r ih1 ih2 =>
    intro cs more hs h
    by_cases hp : packedEnc v pv nk = true
    · simp only [encCols, hp, if_true] at h
      cases cs with
      | nil => exact h.elim
      | cons c cs =>
        have hr := ih2 cs more hs.2 h.2
        cases v with
        | v20 =>
          rw [decode.eq_def]
          simp only [List.cons_append]
          rw [take1_ok h.1]
          simp only [bind, Except.bind]
          rw [hr]
          simp [encCols, hp, ids]
        | v21 =>
          have hq : isPacked pv = true := hp
          rw [decode.eq_def]
          simp only [List.cons_append, hq, if_true]
          rw [take1_ok h.1]
          simp only [bind, Except.bind]
          rw [hr]
          simp [encCols, hp, ids]
    · have hsc : supported v ch := hs.1.resolve_left hp
      simp only [encCols, hp, if_false] at h
      cases v with
      | v20 =>
        cases cs with
        | nil => exact h.elim
        | cons c cs =>
          obtain ⟨as, bs, e, ha, hb⟩ := Matches.split (xs := encCols .v20 ch) h.2
          subst e
          rw [decode.eq_def]
          simp only [List.cons_append]
          rw [take1_ok h.1]
          simp only [bind, Except.bind, List.append_assoc]
          rw [ih1 as (bs ++ more) hsc ha]
          simp only
          rw [ih2 bs more hs.2 hb]
          simp [encCols, hp, ids, List.zip_append, ha.length]
      | v21 =>
        have hq : isPacked pv = false := by simpa [packedEnc] using hp
        obtain ⟨as, bs, e, ha, hb⟩ := Matches.split (xs := encCols .v21 ch) h
        subst e
        rw [decode.eq_def]
        simp only [bind, Except.bind, List.append_assoc, hq, Bool.false_eq_true, if_false]
        rw [ih1 as (bs ++ more) hsc ha]
        simp only
        rw [ih2 bs more hs.2 hb]
        simp [encCols, hp, ids, List.zip_append, ha.length]

/-! ## The whole schema -/

/-- The metadata that says whether a struct is packed is understood alike by the encoder and by the projection; packed structs
    have only children without children; in 2.1 a struct that is not packed has children. -/
def agree (v : Ver) : Flds → Prop
  | .nil => True
  | .leaf _ _ r => agree v r
  | .list _ c r => c.count ≠ 0 ∧ agree v c ∧ agree v r
  | .struct _ pv nk c r =>
    packedEnc v pv nk = isPacked pv ∧
    (if isPacked pv then (preOrder c).length = c.count else agree v c ∧ (v = .v21 → c.count ≠ 0)) ∧
    agree v r

theorem wholeAux_skip (v : Ver) : ∀ (ns more : List Node) (cur : Nat),
    wholeAux v (ns ++ more) ns.length cur = wholeAux v more 0 cur
  | [], _, _ => rfl
  | n :: ns, more, cur => by
    simp only [List.cons_append, List.length_cons, wholeAux, Nat.zero_lt_succ, gt_iff_lt, if_true, Nat.add_sub_cancel]
    exact wholeAux_skip v ns more cur

theorem wholeAux_spec (v : Ver) : ∀ (f : Flds) (more : List Node) (cur : Nat), agree v f →
    wholeAux v (preOrder f ++ more) 0 cur =
      List.range' cur (encCols v f).length ++ wholeAux v more 0 (cur + (encCols v f).length) := by
  intro f
  induction f with
  | nil => intro more cur _; simp [preOrder, encCols]
  | leaf id t r ih =>
    intro more cur h
    simp only [preOrder, List.cons_append, wholeAux, Nat.lt_irrefl, gt_iff_lt, if_false, Bool.false_eq_true, true_or, if_true]
    rw [ih more (cur + 1) h]
    simp [encCols, List.range'_succ, Nat.add_assoc, Nat.add_comm 1]
  | list id c r ih1 ih2 =>
    intro more cur h
    simp only [preOrder, List.cons_append, List.append_assoc, wholeAux, Nat.lt_irrefl, gt_iff_lt, if_false,
      Bool.false_eq_true]
    cases v with
    | v20 =>
      rw [if_pos (Or.inr rfl), ih1 _ _ h.2.1, ih2 _ _ h.2.2]
      simp [encCols, List.range'_succ, ← List.range'_append_1, Nat.add_assoc, Nat.add_comm, Nat.add_left_comm]
    | v21 =>
      have hc := h.1
      rw [if_neg (by simp [hc]), ih1 _ _ h.2.1, ih2 _ _ h.2.2]
      simp [encCols, ← List.range'_append_1, Nat.add_assoc]
  | struct id pv nk c r ih1 ih2 =>
    intro more cur h
    simp only [preOrder, List.cons_append, List.append_assoc, wholeAux, Nat.lt_irrefl, gt_iff_lt, if_false]
    obtain ⟨he, hk, hr⟩ := h
    by_cases hp : isPacked pv = true
    · rw [if_pos hp] at hk
      rw [if_pos hp, ← hk, wholeAux_skip, ih2 _ _ hr]
      simp [encCols, he, hp, List.range'_succ, Nat.add_assoc, Nat.add_comm 1]
    · rw [if_neg hp] at hk
      rw [if_neg hp]
      cases v with
      | v20 =>
        rw [if_pos (Or.inr rfl), ih1 _ _ hk.1, ih2 _ _ hr]
        simp [encCols, he, hp, List.range'_succ, ← List.range'_append_1, Nat.add_assoc, Nat.add_comm, Nat.add_left_comm]
      | v21 =>
        have hc := hk.2 rfl
        rw [if_neg (by simp [hc]), ih1 _ _ hk.1, ih2 _ _ hr]
        simp [encCols, he, hp, ← List.range'_append_1, Nat.add_assoc]

theorem fromWhole_eq (v : Ver) (f : Flds) (h : agree v f) :
    fromWhole v f = List.range (encCols v f).length := by
  have h1 := wholeAux_spec v f [] 0 h
  simp only [List.append_nil, wholeAux] at h1
  rw [fromWhole, h1, List.range_eq_range']

theorem matches_self (cols : List ColKind) :
    ∀ (xs : List (Nat × ColKind)) (s : Nat), (∀ i, cols[s + i]? = (xs.map (·.2))[i]? ∨ xs.length ≤ i) →
      Matches cols xs (List.range' s xs.length)
  | [], _, _ => trivial
  | x :: xs, s, h => by
    have h0 := h 0
    simp at h0
    refine ⟨by simpa using h0, matches_self cols xs (s + 1) fun i => ?_⟩
    have hi := h (i + 1)
    have e : s + 1 + i = s + (i + 1) := by omega
    rw [e]
    rcases hi with hi | hi
    · left; simpa using hi
    · right; simpa using hi

theorem matches_file (v : Ver) (f : Flds) :
    Matches (fileCols v f) (encCols v f) (List.range (encCols v f).length) := by
  rw [List.range_eq_range']
  exact matches_self _ _ _ fun i => Or.inl (by simp [fileCols])

theorem mapping_eq (v : Ver) (f : Flds) :
    mapping v f = (ids (encCols v f)).zip (List.range (encCols v f).length) := by
  rw [mapping, List.zipIdx_eq_zip_range']
  simp [ids, List.range_eq_range']

/-! ## Projections by field id -/

theorem lookup_of_mem {l : List (Nat × Nat)} {i c : Nat} (hn : (l.map (·.1)).Nodup) (h : (i, c) ∈ l) :
    l.lookup i = some c := by
  induction l with
  | nil => cases h
  | cons x xs ih =>
    obtain ⟨a, b⟩ := x
    simp only [List.map_cons, List.nodup_cons] at hn
    rw [List.lookup_cons]
    rcases List.mem_cons.1 h with e | hx
    · cases e; simp
    · have hne : (i == a) = false := by
        simp only [beq_eq_false_iff_ne, ne_eq]
        intro e
        subst e
        exact hn.1 (List.mem_map.2 ⟨(i, c), hx, rfl⟩)
      rw [hne]
      exact ih hn.2 hx

theorem lookup_not_mem {l : List (Nat × Nat)} {i : Nat} (h : i ∉ l.map (·.1)) : l.lookup i = none := by
  induction l with
  | nil => rfl
  | cons x xs ih =>
    obtain ⟨a, b⟩ := x
    simp only [List.map_cons, List.mem_cons, not_or] at h
    rw [List.lookup_cons]
    have hne : (i == a) = false := by simp only [beq_eq_false_iff_ne, ne_eq]; exact h.1
    rw [hne]
    exact ih h.2

theorem lookup_some {m : List (Nat × Nat)} {i c : Nat} (hn : (m.map (·.1)).Nodup) (h : (i, c) ∈ m) :
    lookup m i = some c := by
  rw [lookup]
  refine lookup_of_mem ?_ (List.mem_reverse.2 h)
  rw [List.map_reverse]
  exact (List.reverse_perm _).nodup_iff.2 hn

theorem lookup_none {m : List (Nat × Nat)} {i : Nat} (h : i ∉ m.map (·.1)) : lookup m i = none := by
  rw [lookup]
  refine lookup_not_mem ?_
  rw [List.map_reverse]
  simpa using h

theorem mapping_ids (v : Ver) (f : Flds) : (mapping v f).map (·.1) = ids (encCols v f) := by
  rw [mapping, ids]
  simp

theorem lookup_mapping {v : Ver} {f : Flds} (hn : (ids (encCols v f)).Nodup) {x : Nat × ColKind}
    (hx : x ∈ encCols v f) : ∃ c : Nat, lookup (mapping v f) x.1 = some c ∧ (encCols v f)[c]? = some x := by
  obtain ⟨c, hc, e⟩ := List.getElem_of_mem hx
  refine ⟨c, lookup_some (by rw [mapping_ids]; exact hn) ?_, by rw [List.getElem?_eq_getElem hc, e]⟩
  rw [mapping, List.mem_zipIdx_iff_getElem?]
  simp [List.getElem?_eq_getElem hc, e]

/-- The fields that have no column of their own. -/
def hidden (v : Ver) : Flds → List Nat
  | .nil => []
  | .leaf _ _ r => hidden v r
  | .list id c r => (match v with | .v20 => [] | .v21 => [id]) ++ hidden v c ++ hidden v r
  | .struct id pv nk c r =>
    if packedEnc v pv nk then fieldIds c ++ hidden v r
    else (match v with | .v20 => [] | .v21 => [id]) ++ hidden v c ++ hidden v r

/-- No struct is packed. -/
def unpacked (v : Ver) (f : Flds) : Prop := ∀ x ∈ encCols v f, x.2 ≠ .packed

theorem fromIds_nil {v : Ver} {m : List (Nat × Nat)} : ∀ (p : Flds), (∀ i ∈ fieldIds p, i ∉ m.map (·.1)) →
    fromIds v m p = [] := by
  intro p
  induction p with
  | nil => intro _; rfl
  | leaf id t r ih =>
    intro h
    simp only [fromIds]
    rw [lookup_none (h id (by simp [fieldIds, preOrder]))]
    exact ih fun i hi => h i (by simp only [fieldIds] at hi ⊢; simp [preOrder, hi])
  | list id c r ih1 ih2 =>
    intro h
    simp only [fromIds]
    rw [lookup_none (h id (by simp [fieldIds, preOrder])),
      ih1 fun i hi => h i (by simp only [fieldIds, preOrder, List.map_cons, List.map_append, List.mem_cons,
        List.mem_append] at hi ⊢; exact Or.inr (Or.inl hi)),
      ih2 fun i hi => h i (by simp only [fieldIds, preOrder, List.map_cons, List.map_append, List.mem_cons,
        List.mem_append] at hi ⊢; exact Or.inr (Or.inr hi))]
    simp
  | struct id pv nk c r ih1 ih2 =>
    intro h
    simp only [fromIds]
    rw [lookup_none (h id (by simp [fieldIds, preOrder])),
      ih1 fun i hi => h i (by simp only [fieldIds, preOrder, List.map_cons, List.map_append, List.mem_cons,
        List.mem_append] at hi ⊢; exact Or.inr (Or.inl hi)),
      ih2 fun i hi => h i (by simp only [fieldIds, preOrder, List.map_cons, List.map_append, List.mem_cons,
        List.mem_append] at hi ⊢; exact Or.inr (Or.inr hi))]
    simp

/-- `cs` are the columns of the file `f` that belong to the entries `xs`. -/
def Own (v : Ver) (f : Flds) : List (Nat × ColKind) → List Nat → Prop
  | [], [] => True
  | x :: xs, c :: cs => (encCols v f)[c]? = some x ∧ Own v f xs cs
  | _, _ => False

theorem Own.append {v : Ver} {f : Flds} :
    ∀ {xs ys : List (Nat × ColKind)} {as bs : List Nat}, Own v f xs as → Own v f ys bs →
      Own v f (xs ++ ys) (as ++ bs)
  | [], _, [], _, _, h => h
  | _ :: _, _, _ :: _, _, h1, h2 => ⟨h1.1, Own.append h1.2 h2⟩
  | [], _, _ :: _, _, h, _ => h.elim
  | _ :: _, _, [], _, h, _ => h.elim

theorem Own.matches {v : Ver} {f : Flds} :
    ∀ {xs : List (Nat × ColKind)} {cs : List Nat}, Own v f xs cs → Matches (fileCols v f) xs cs
  | [], [], _ => trivial
  | _ :: _, _ :: _, h => ⟨by simp [fileCols, h.1], Own.matches h.2⟩
  | [], _ :: _, h => h.elim
  | _ :: _, [], h => h.elim

theorem Own.mem_mapping {v : Ver} {f : Flds} :
    ∀ {xs : List (Nat × ColKind)} {cs : List Nat}, Own v f xs cs → ∀ q ∈ (ids xs).zip cs, q ∈ mapping v f
  | [], [], _, q, h => by simp [ids] at h
  | x :: xs, c :: cs, h, q, hq => by
    simp only [ids, List.map_cons, List.zip_cons_cons, List.mem_cons] at hq
    rcases hq with rfl | hq
    · rw [mapping, List.mem_zipIdx_iff_getElem?]
      simp [h.1]
    · exact Own.mem_mapping h.2 q hq
  | [], _ :: _, h, _, _ => h.elim
  | _ :: _, [], h, _, _ => h.elim

theorem Own.bound {v : Ver} {f : Flds} :
    ∀ {xs : List (Nat × ColKind)} {cs : List Nat}, Own v f xs cs → ∀ c ∈ cs, ∃ x ∈ xs, (encCols v f)[c]? = some x
  | [], [], _, _, h => by cases h
  | x :: xs, c :: cs, h, d, hd => by
    rcases List.mem_cons.1 hd with rfl | hd
    · exact ⟨x, List.mem_cons_self, h.1⟩
    · obtain ⟨y, hy, e⟩ := Own.bound h.2 d hd
      exact ⟨y, List.mem_cons_of_mem _ hy, e⟩
  | [], _ :: _, h, _, _ => h.elim
  | _ :: _, [], h, _, _ => h.elim

theorem Own.nodup {v : Ver} {f : Flds} :
    ∀ {xs : List (Nat × ColKind)} {cs : List Nat}, Own v f xs cs → (ids xs).Nodup → cs.Nodup
  | [], [], _, _ => List.nodup_nil
  | x :: xs, c :: cs, h, hn => by
    simp only [ids, List.map_cons, List.nodup_cons] at hn
    refine List.nodup_cons.2 ⟨fun hc => ?_, Own.nodup h.2 hn.2⟩
    obtain ⟨y, hy, e⟩ := Own.bound h.2 c hc
    rw [h.1] at e
    cases e
    exact hn.1 (List.mem_map.2 ⟨x, hy, rfl⟩)
  | [], _ :: _, h, _ => h.elim
  | _ :: _, [], h, _ => h.elim

theorem count_zero {f : Flds} (h : f.count = 0) : f = .nil := by
  cases f <;> simp [Flds.count] at h ⊢

theorem fromIds_own {v : Ver} {f : Flds} (hn : (ids (encCols v f)).Nodup) :
    ∀ (p : Flds), (∀ x ∈ encCols v p, x ∈ encCols v f) → (∀ i ∈ hidden v p, i ∉ ids (encCols v f)) →
      (v = .v21 → unpacked v p) → Own v f (encCols v p) (fromIds v (mapping v f) p) := by
  intro p
  induction p with
  | nil => intro _ _ _; trivial
  | leaf id t r ih =>
    intro h1 h2 h3
    obtain ⟨c, hc, he⟩ := lookup_mapping hn (h1 (id, .values) (by simp [encCols]))
    simp only [fromIds, hc, encCols]
    exact ⟨he, ih (fun x hx => h1 x (by simp [encCols, hx])) h2 fun hv x hx => h3 hv x (by simp [encCols, hx])⟩
  | list id c r ih1 ih2 =>
    intro h1 h2 h3
    have hc := ih1 (fun x hx => h1 x (by simp [encCols, hx])) (fun i hi => h2 i (by simp [hidden, hi]))
      fun hv x hx => h3 hv x (by simp [encCols, hx])
    have hr := ih2 (fun x hx => h1 x (by simp [encCols, hx])) (fun i hi => h2 i (by simp [hidden, hi]))
      fun hv x hx => h3 hv x (by simp [encCols, hx])
    simp only [fromIds, encCols]
    refine Own.append (Own.append ?_ hc) hr
    cases v with
    | v20 =>
      obtain ⟨n, hl, he⟩ := lookup_mapping hn (h1 (id, .offsets) (by simp [encCols]))
      simp only [true_or, if_true, hl]
      exact ⟨he, trivial⟩
    | v21 =>
      have hl : lookup (mapping .v21 f) id = none := by
        refine lookup_none ?_
        rw [mapping_ids]
        exact h2 id (by simp [hidden])
      rw [hl]
      simp [Own]
  | struct id pv nk c r ih1 ih2 =>
    intro h1 h2 h3
    by_cases hp : packedEnc v pv nk = true
    · have hr := ih2 (fun x hx => h1 x (by simp [encCols, hp, hx])) (fun i hi => h2 i (by simp [hidden, hp, hi]))
        fun hv x hx => h3 hv x (by simp [encCols, hp, hx])
      cases v with
      | v20 =>
        obtain ⟨n, hl, he⟩ := lookup_mapping hn (h1 (id, .packed) (by simp [encCols, hp]))
        simp only [fromIds, encCols, hp, if_true, true_or, hl]
        rw [fromIds_nil c fun i hi => by rw [mapping_ids]; exact h2 i (by simp [hidden, hp, hi])]
        exact ⟨he, hr⟩
      | v21 => exact absurd rfl (h3 rfl (id, .packed) (by simp [encCols, hp]))
    · have hc := ih1 (fun x hx => h1 x (by simp [encCols, hp, hx])) (fun i hi => h2 i (by simp [hidden, hp, hi]))
        fun hv x hx => h3 hv x (by simp [encCols, hp, hx])
      have hr := ih2 (fun x hx => h1 x (by simp [encCols, hp, hx])) (fun i hi => h2 i (by simp [hidden, hp, hi]))
        fun hv x hx => h3 hv x (by simp [encCols, hp, hx])
      simp only [fromIds, encCols, hp]
      refine Own.append (Own.append ?_ hc) hr
      cases v with
      | v20 =>
        obtain ⟨n, hl, he⟩ := lookup_mapping hn (h1 (id, .header) (by simp [encCols, hp]))
        simp only [true_or, if_true, hl]
        exact ⟨he, trivial⟩
      | v21 =>
        have hl : lookup (mapping .v21 f) id = none := by
          refine lookup_none ?_
          rw [mapping_ids]
          exact h2 id (by simp [hidden, hp])
        rw [hl]
        simp [Own]

/-! ## Field ids of a schema -/

theorem perm_ids (v : Ver) : ∀ f : Flds, (fieldIds f).Perm (ids (encCols v f) ++ hidden v f) := by
  intro f
  induction f with
  | nil => exact List.Perm.refl _
  | leaf id t r ih => exact List.Perm.cons id ih
  | list id c r ih1 ih2 =>
    have h : (fieldIds c ++ fieldIds r).Perm
        ((ids (encCols v c) ++ ids (encCols v r)) ++ (hidden v c ++ hidden v r)) := by
      refine (List.Perm.append ih1 ih2).trans ?_
      simp only [List.append_assoc]
      refine List.Perm.append_left _ ?_
      rw [← List.append_assoc, ← List.append_assoc]
      exact List.Perm.append_right _ List.perm_append_comm
    have e : fieldIds (.list id c r) = id :: (fieldIds c ++ fieldIds r) := by simp [fieldIds, preOrder]
    rw [e]
    cases v with
    | v20 => simpa [ids, encCols, hidden] using h
    | v21 =>
      refine (List.Perm.cons id h).trans ?_
      have e2 : ids (encCols .v21 (.list id c r)) ++ hidden .v21 (.list id c r) =
          (ids (encCols .v21 c) ++ ids (encCols .v21 r)) ++ id :: (hidden .v21 c ++ hidden .v21 r) := by
        simp [ids, encCols, hidden]
      rw [e2]
      exact List.perm_middle.symm
  | struct id pv nk c r ih1 ih2 =>
    have e : fieldIds (.struct id pv nk c r) = id :: (fieldIds c ++ fieldIds r) := by simp [fieldIds, preOrder]
    rw [e]
    by_cases hp : packedEnc v pv nk = true
    · have e2 : ids (encCols v (.struct id pv nk c r)) ++ hidden v (.struct id pv nk c r) =
          id :: (ids (encCols v r) ++ (fieldIds c ++ hidden v r)) := by
        simp [ids, encCols, hidden, hp]
      rw [e2]
      refine List.Perm.cons id ((List.Perm.append_left (fieldIds c) ih2).trans ?_)
      rw [← List.append_assoc, ← List.append_assoc]
      exact List.Perm.append_right _ List.perm_append_comm
    · have h : (fieldIds c ++ fieldIds r).Perm
          ((ids (encCols v c) ++ ids (encCols v r)) ++ (hidden v c ++ hidden v r)) := by
        refine (List.Perm.append ih1 ih2).trans ?_
        simp only [List.append_assoc]
        refine List.Perm.append_left _ ?_
        rw [← List.append_assoc, ← List.append_assoc]
        exact List.Perm.append_right _ List.perm_append_comm
      cases v with
      | v20 => simpa [ids, encCols, hidden, hp] using h
      | v21 =>
        refine (List.Perm.cons id h).trans ?_
        have e2 : ids (encCols .v21 (.struct id pv nk c r)) ++ hidden .v21 (.struct id pv nk c r) =
            (ids (encCols .v21 c) ++ ids (encCols .v21 r)) ++ id :: (hidden .v21 c ++ hidden .v21 r) := by
          simp [ids, encCols, hidden, hp]
        rw [e2]
        exact List.perm_middle.symm

theorem ids_nodup {v : Ver} {f : Flds} (h : (fieldIds f).Nodup) : (ids (encCols v f)).Nodup :=
  (List.nodup_append.1 ((perm_ids v f).nodup_iff.1 h)).1

theorem hidden_disjoint {v : Ver} {f : Flds} (h : (fieldIds f).Nodup) {i : Nat} (hi : i ∈ hidden v f) :
    i ∉ ids (encCols v f) := fun hm =>
  (List.nodup_append.1 ((perm_ids v f).nodup_iff.1 h)).2.2 i hm i hi rfl

/-! ## Selecting fields by id -/

theorem project_fields (sel : List Nat) : ∀ f : Flds, (fieldIds (projectIds sel f)).Sublist (fieldIds f) := by
  intro f
  induction f with
  | nil => exact List.Sublist.refl _
  | leaf id t r ih =>
    by_cases h : id ∈ sel
    · simp only [projectIds, h, if_true]
      exact ih.cons_cons id
    · simp only [projectIds, h, if_false]
      exact ih.cons id
  | list id c r ih1 ih2 =>
    have e : ∀ a b, fieldIds (.list id a b) = id :: (fieldIds a ++ fieldIds b) := by intro a b; simp [fieldIds, preOrder]
    have hr := List.Sublist.trans ih2 (List.sublist_append_right (fieldIds c) (fieldIds r))
    simp only [projectIds]
    split
    · split
      · rw [e, e]
        exact (List.Sublist.append (List.Sublist.refl _) ih2).cons_cons id
      · rw [e]
        exact hr.cons id
    · rw [e, e]
      exact (List.Sublist.append ih1 ih2).cons_cons id
  | struct id pv nk c r ih1 ih2 =>
    have e : ∀ a b, fieldIds (.struct id pv nk a b) = id :: (fieldIds a ++ fieldIds b) := by
      intro a b; simp [fieldIds, preOrder]
    have hr := List.Sublist.trans ih2 (List.sublist_append_right (fieldIds c) (fieldIds r))
    simp only [projectIds]
    split
    · split
      · rw [e, e]
        exact (List.Sublist.append (List.Sublist.refl _) ih2).cons_cons id
      · rw [e]
        exact hr.cons id
    · rw [e, e]
      exact (List.Sublist.append ih1 ih2).cons_cons id

theorem project_cols (v : Ver) (sel : List Nat) : ∀ f : Flds,
    (∀ x ∈ encCols v (projectIds sel f), x ∈ encCols v f) ∧ (∀ i ∈ hidden v (projectIds sel f), i ∈ hidden v f) := by
  intro f
  induction f with
  | nil => exact ⟨fun _ h => h, fun _ h => h⟩
  | leaf id t r ih =>
    by_cases h : id ∈ sel
    · simp only [projectIds, h, if_true, encCols, hidden, List.mem_cons]
      exact ⟨fun x hx => hx.imp_right (ih.1 x), ih.2⟩
    · simp only [projectIds, h, if_false, encCols, hidden, List.mem_cons]
      exact ⟨fun x hx => Or.inr (ih.1 x hx), ih.2⟩
  | list id c r ih1 ih2 =>
    simp only [projectIds]
    split
    · split
      · simp only [encCols, hidden, List.mem_append]
        exact ⟨fun x hx => hx.imp_right (ih2.1 x), fun x hx => hx.imp_right (ih2.2 x)⟩
      · simp only [encCols, hidden, List.mem_append]
        exact ⟨fun x hx => Or.inr (ih2.1 x hx), fun x hx => Or.inr (ih2.2 x hx)⟩
    · simp only [encCols, hidden, List.mem_append]
      exact ⟨fun x hx => hx.imp (Or.imp_right (ih1.1 x)) (ih2.1 x), fun x hx => hx.imp (Or.imp_right (ih1.2 x)) (ih2.2 x)⟩
  | struct id pv nk c r ih1 ih2 =>
    simp only [projectIds]
    by_cases hp : packedEnc v pv nk = true
    · split
      · split
        · simp only [encCols, hidden, hp, if_true, List.mem_append, List.mem_cons]
          exact ⟨fun x hx => hx.imp_right (ih2.1 x), fun x hx => hx.imp_right (ih2.2 x)⟩
        · simp only [encCols, hidden, hp, if_true, List.mem_append, List.mem_cons]
          exact ⟨fun x hx => Or.inr (ih2.1 x hx), fun x hx => Or.inr (ih2.2 x hx)⟩
      · simp only [encCols, hidden, hp, if_true, List.mem_append, List.mem_cons]
        exact ⟨fun x hx => hx.imp_right (ih2.1 x), fun x hx => hx.imp ((project_fields sel c).mem) (ih2.2 x)⟩
    · split
      · split
        · simp only [encCols, hidden, hp, if_false, Bool.false_eq_true, List.mem_append]
          exact ⟨fun x hx => hx.imp_right (ih2.1 x), fun x hx => hx.imp_right (ih2.2 x)⟩
        · simp only [encCols, hidden, hp, if_false, Bool.false_eq_true, List.mem_append]
          exact ⟨fun x hx => Or.inr (ih2.1 x hx), fun x hx => Or.inr (ih2.2 x hx)⟩
      · simp only [encCols, hidden, hp, if_false, Bool.false_eq_true, List.mem_append]
        exact ⟨fun x hx => hx.imp (Or.imp_right (ih1.1 x)) (ih2.1 x),
          fun x hx => hx.imp (Or.imp_right (ih1.2 x)) (ih2.2 x)⟩

theorem project_supported (v : Ver) (sel : List Nat) : ∀ f : Flds, supported v f → supported v (projectIds sel f) := by
  intro f
  induction f with
  | nil => exact id
  | leaf i t r ih =>
    intro h
    by_cases hm : i ∈ sel
    · simp only [projectIds, hm, if_true]; exact ⟨h.1, ih h.2⟩
    · simp only [projectIds, hm, if_false]; exact ih h.2
  | list i c r ih1 ih2 =>
    intro h
    simp only [projectIds]
    split
    · split
      · exact ⟨h.1, ih2 h.2⟩
      · exact ih2 h.2
    · exact ⟨ih1 h.1, ih2 h.2⟩
  | struct i pv nk c r ih1 ih2 =>
    intro h
    simp only [projectIds]
    split
    · split
      · exact ⟨h.1, ih2 h.2⟩
      · exact ih2 h.2
    · exact ⟨h.1.imp id ih1, ih2 h.2⟩

/-! ## Reading -/

theorem rootPages_one {rows : Nat} : rootPages rows = 1 ↔ 0 < rows ∧ rows < 2 ^ 32 := by
  unfold rootPages
  constructor
  · intro h
    constructor
    · rcases Nat.eq_zero_or_pos rows with h0 | h0
      · subst h0; simp at h
      · exact h0
    · apply Nat.lt_of_not_le
      intro hl
      have : 2 ≤ (rows + (2 ^ 32 - 1) - 1) / (2 ^ 32 - 1) := by
        rw [Nat.le_div_iff_mul_le (by decide)]
        omega
      omega
  · intro ⟨h1, h2⟩
    have : (rows + (2 ^ 32 - 1) - 1) = (rows - 1) + (2 ^ 32 - 1) := by omega
    rw [this, Nat.add_div_right _ (by decide), Nat.div_eq_of_lt (by omega)]

/-- A number of rows that a file of the version can have and still be read. -/
def rowsOk : Ver → Nat → Prop
  | .v20, n => 0 < n ∧ n < 2 ^ 32
  | .v21, n => 0 < n

theorem openCols_ok {v : Ver} {cols : List ColKind} {rows : Nat} {p : Flds} {is : List Nat} (hr : rowsOk v rows)
    (hs : supported v p) (hm : Matches cols (encCols v p) is) (hp : p ≠ .nil) (hn : is.Nodup)
    (hb : ∀ i ∈ is, i < cols.length) (hc : encCols v p ≠ []) :
    openCols v cols rows p is = .ok ((ids (encCols v p)).zip is) := by
  have hv : validate cols p is = true := by
    simp only [validate, Bool.and_eq_true, decide_eq_true_eq, List.all_eq_true]
    exact ⟨⟨hp, hn⟩, hb⟩
  have hd := decode_spec p is [] hs hm
  rw [List.append_nil] at hd
  have hi : is ≠ [] := by
    intro e
    have := hm.length
    rw [e] at this
    exact hc (List.length_eq_zero_iff.1 (by simpa using this))
  have hcol : cols ≠ [] := by
    intro e
    cases is with
    | nil => exact hi rfl
    | cons i is =>
      have := hb i List.mem_cons_self
      rw [e] at this
      simp at this
  unfold openCols
  rw [if_pos hv]
  cases v with
  | v20 =>
    simp only
    rw [if_neg (by
      rintro (h | h)
      · exact hcol h
      · exact h (rootPages_one.2 hr)), hd]
    rfl
  | v21 =>
    simp only
    rw [if_neg (by
      rintro (h | h)
      · exact hcol h
      · exact hi h), hd]
    rfl

end Verif.Proj
