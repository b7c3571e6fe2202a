import Verif.Vec.LemmasStep
namespace Verif.Vec
variable {V C : Type}

theorem mem_entries {x : IndexFile C} {parts : List (List (Addr × C))} (h : FileOk x parts) {e : Nat × Addr × C} :
    e ∈ x.entries ↔ ∃ rows, parts[e.1]? = some rows ∧ e.2 ∈ rows := by
  unfold IndexFile.entries
  rw [List.mem_flatMap]
  constructor
  · rintro ⟨p, hp, he⟩
    obtain ⟨r, hr, rfl⟩ := List.mem_map.1 he
    rw [h.2 p] at hr
    cases hpp : parts[p]? with
    | none => rw [hpp] at hr; cases hr
    | some rows => rw [hpp] at hr; exact ⟨rows, rfl, hr⟩
  · rintro ⟨rows, h1, h2⟩
    refine ⟨e.1, ?_, ?_⟩
    · rw [List.mem_range, h.1]
      exact (List.getElem?_eq_some_iff.1 h1).1
    · rw [h.2, h1]
      exact List.mem_map.2 ⟨e.2, h2, rfl⟩

theorem countP_one {α β : Type} (f : β → Bool) (g : α → List β) {l : List α} {x : α} {pre post : List α} (hl : l = pre ++ x :: post)
    (hx : (g x).countP f = 1) (hpre : ∀ y ∈ pre, (g y).countP f = 0) (hpost : ∀ y ∈ post, (g y).countP f = 0) : (l.flatMap g).countP f = 1 := by
  have zero : ∀ l : List α, (∀ y ∈ l, (g y).countP f = 0) → (l.flatMap g).countP f = 0 := by
    intro l
    induction l with
    | nil => intro _; rfl
    | cons y ys ih =>
      intro h
      rw [List.flatMap_cons, List.countP_append, h y List.mem_cons_self, ih (fun z hz => h z (List.mem_cons_of_mem _ hz))]
  rw [hl, List.flatMap_append, List.flatMap_cons, List.countP_append, List.countP_append, hx, zero pre hpre, zero post hpost]

theorem countP_eq_one_of_nodup {rows : List (Addr × C)} (hn : (rows.map Prod.fst).Nodup) {a : Addr} (ha : a ∈ rows.map Prod.fst) :
    rows.countP (fun r => r.1 == a) = 1 := by
  have : rows.countP (fun r => r.1 == a) = (rows.map Prod.fst).countP (fun b => b == a) := by rw [List.countP_map]; rfl
  rw [this]
  obtain ⟨pre, post, h⟩ := List.append_of_mem ha
  rw [h] at hn ⊢
  obtain ⟨_, h2, h3⟩ := List.nodup_append.1 hn
  have h4 := (List.nodup_cons.1 h2).1
  have z1 : pre.countP (fun b => b == a) = 0 := by
    rw [List.countP_eq_zero]
    intro b hb he
    exact h3 b hb a List.mem_cons_self (by simpa using he)
  have z2 : post.countP (fun b => b == a) = 0 := by
    rw [List.countP_eq_zero]
    intro b hb he
    rw [show b = a by simpa using he] at hb
    exact h4 hb
  rw [List.countP_append, List.countP_cons, z1, z2]
  simp

/-- A delta has a live row of it once. -/
theorem DeltaOk.count_one {raw : Bool} {c : Cfg V C} {frags : List (Frag V)} {d : Delta C} {parts : List (List (Addr × C))} (h : DeltaOk raw c frags d parts)
    {a : Addr} {v : V} (hl : lookup frags a = some (some v)) (hb : a.1 ∈ d.bitmap) : d.file.entries.countP (fun e => e.2.1 == a) = 1 := by
  obtain ⟨rows, h1, h2⟩ := h.complete a v hl hb
  have hp : c.pid v < d.file.nparts := by
    rw [h.file.1]
    exact (List.getElem?_eq_some_iff.1 h1).1
  obtain ⟨pre, post, hsplit⟩ := List.append_of_mem (List.mem_range.2 hp)
  have hnd : (pre ++ c.pid v :: post).Nodup := by rw [← hsplit]; exact List.nodup_range
  have other : ∀ p, p ≠ c.pid v → (((d.file.load p).getD []).map (fun r => (p, r))).countP (fun e => e.2.1 == a) = 0 := by
    intro p hne
    rw [List.countP_eq_zero]
    intro e he heq
    obtain ⟨r, hr, rfl⟩ := List.mem_map.1 he
    rw [h.file.2 p] at hr
    cases hpp : parts[p]? with
    | none => rw [hpp] at hr; cases hr
    | some rs =>
      rw [hpp] at hr
      have hra : r.1 = a := by simpa using heq
      obtain ⟨v', hv, hpid, _⟩ := h.sound p rs hpp r hr (some v) (by rw [hra]; exact hl)
      cases hv
      exact hne hpid.symm
  unfold IndexFile.entries
  refine countP_one _ _ hsplit ?_ ?_ ?_
  · rw [h.file.2, h1, List.countP_map]
    exact countP_eq_one_of_nodup (h.nodup _ rows h1) h2
  · intro p hp'
    apply other
    intro e
    subst e
    exact (List.nodup_append.1 hnd).2.2 _ hp' _ List.mem_cons_self rfl
  · intro p hp'
    apply other
    intro e
    subst e
    exact (List.nodup_cons.1 (List.nodup_append.1 hnd).2.1).1 hp'

/-- A delta has no row of other fragments. -/
theorem DeltaOk.count_zero {raw : Bool} {c : Cfg V C} {frags : List (Frag V)} {d : Delta C} {parts : List (List (Addr × C))} (h : DeltaOk raw c frags d parts)
    {a : Addr} (hb : a.1 ∉ d.bitmap) : d.file.entries.countP (fun e => e.2.1 == a) = 0 := by
  rw [List.countP_eq_zero]
  intro e he heq
  obtain ⟨rows, h1, h2⟩ := (mem_entries h.file).1 he
  have := h.bitmap _ rows h1 _ h2
  rw [show e.2.1 = a by simpa using heq] at this
  exact hb this

theorem Deltas.row_once {raw : Bool} {c : Cfg V C} {frags : List (Frag V)} {ds : List (Delta C)} (h : Deltas raw c frags ds) {a : Addr} {v : V}
    (hl : lookup frags a = some (some v)) (hc : covered ds a.1 = true) : occurrences ds a = 1 := by
  unfold covered at hc
  simp only [List.contains_eq_mem, decide_eq_true_eq] at hc
  obtain ⟨d, hd, hb⟩ := List.mem_flatMap.1 hc
  obtain ⟨pre, post, hsplit⟩ := List.append_of_mem hd
  have hp := h.2
  rw [hsplit, List.pairwise_append] at hp
  unfold occurrences
  refine countP_one _ _ hsplit ?_ ?_ ?_
  · obtain ⟨parts, hok⟩ := h.1 d hd
    exact hok.count_one hl hb
  · intro e he
    obtain ⟨parts, hok⟩ := h.1 e (by rw [hsplit]; exact List.mem_append_left _ he)
    exact hok.count_zero (fun hb' => hp.2.2 e he d List.mem_cons_self a.1 hb' hb)
  · intro e he
    obtain ⟨parts, hok⟩ := h.1 e (by rw [hsplit]; exact List.mem_append_right _ (List.mem_cons_of_mem _ he))
    exact hok.count_zero ((List.pairwise_cons.1 hp.2.1).1 e he a.1 hb)

theorem Deltas.no_row {raw : Bool} {c : Cfg V C} {frags : List (Frag V)} {ds : List (Delta C)} (h : Deltas raw c frags ds) {a : Addr}
    (hc : lookup frags a = some none ∨ covered ds a.1 = false) : occurrences ds a = 0 := by
  unfold occurrences
  rw [List.countP_eq_zero]
  intro e he heq
  obtain ⟨d, hd, he⟩ := List.mem_flatMap.1 he
  obtain ⟨parts, hok⟩ := h.1 d hd
  obtain ⟨rows, h1, h2⟩ := (mem_entries hok.file).1 he
  have hea : e.2.1 = a := by simpa using heq
  rcases hc with hc | hc
  · obtain ⟨v, hv, _⟩ := hok.sound _ rows h1 _ h2 none (by rw [hea]; exact hc)
    cases hv
  · have hb := hok.bitmap _ rows h1 _ h2
    rw [hea] at hb
    unfold covered at hc
    simp only [List.contains_eq_mem, decide_eq_false_iff_not] at hc
    exact hc (List.mem_flatMap.2 ⟨d, hd, hb⟩)

/-! ### When the operations succeed -/

theorem takePartition_ok {frags : List (Frag V)} {olds : List (IndexFile C)} {reader : Reader V} {p : Nat} {old : List (List (Addr × V))} {sz : Nat}
    (h1 : olds.mapM (fun x => (x.load p).bind (fun rows => takeVectors frags (rows.map Prod.fst))) = some old) (h2 : reader.size p = some sz)
    (h3 : 0 < sz → ∃ rb, reader.read p = some rb) : ∃ rows b, takePartition frags olds reader p = some (rows, b) := by
  unfold takePartition
  rw [h1, h2]
  simp only
  by_cases hs : 0 < sz
  · obtain ⟨rb, hrb⟩ := h3 hs
    rw [if_pos hs, hrb]
    exact ⟨_, _, rfl⟩
  · rw [if_neg hs]
    exact ⟨_, _, rfl⟩

theorem mapM_ok {α β : Type} {f : α → Option β} {l : List α} {out : List β} (h : l.mapM f = some out) {a : α} (ha : a ∈ l) : ∃ b ∈ out, f a = some b := by
  obtain ⟨i, hi⟩ := List.mem_iff_getElem?.1 ha
  obtain ⟨b, h1, h2⟩ := (mapM_some h).2 i a hi
  exact ⟨b, List.mem_of_getElem? h1, h2⟩

/-- The build succeeds iff the merged rows are all there and there is some row. -/
theorem build_some_iff {raw : Bool} {c : Cfg V C} (hc : c.Valid) {frags un : List (Frag V)} (hi : Ids frags) {olds : List (Delta C)} (ho : Deltas raw c frags olds)
    {data : Option (List (Addr × V))} (hdata : data.getD (vectorsOf frags) = vectorsOf un) :
    (∃ x, c.build frags (olds.map Delta.file) data = some x) ↔
      (∀ d ∈ olds, ∀ e ∈ d.file.entries, ∃ w, lookup frags e.2.1 = some w) ∧ (vectorsOf un ≠ [] ∨ ∃ d ∈ olds, d.file.entries ≠ []) := by
  obtain ⟨reader, hr, hro⟩ := shuffleData_spec hc (vectorsOf un)
  have hbuild : c.build frags (olds.map Delta.file) data = c.buildWith frags (olds.map Delta.file) reader := by
    unfold Cfg.build
    rw [hdata, hr]
  rw [hbuild]
  unfold Cfg.buildWith
  constructor
  · rintro ⟨x, hx⟩
    cases hm : (List.range c.nparts).mapM (takePartition frags (olds.map Delta.file) reader) with
    | none => rw [hm] at hx; cases hx
    | some taken =>
      rw [hm] at hx
      simp only at hx
      have htk : ∀ p, p < c.nparts → ∃ rows b, (rows, b) ∈ taken ∧ takePartition frags (olds.map Delta.file) reader p = some (rows, b) := by
        intro p hp
        obtain ⟨⟨rows, b⟩, h1, h2⟩ := mapM_ok hm (List.mem_range.2 hp)
        exact ⟨rows, b, h1, h2⟩
      refine ⟨?_, ?_⟩
      · intro d hd e he
        obtain ⟨parts, hok⟩ := ho.1 d hd
        obtain ⟨rows, h1, h2⟩ := (mem_entries hok.file).1 he
        have hp : e.1 < c.nparts := by
          rw [← hok.nparts]
          exact (List.getElem?_eq_some_iff.1 h1).1
        obtain ⟨rs, b, _, h4⟩ := htk e.1 hp
        obtain ⟨old, new, sz, h5, _⟩ := takePartition_some h4
        obtain ⟨o, h6, h7⟩ := mapM_ok h5 (List.mem_map_of_mem hd)
        rw [hok.file.2, h1] at h7
        obtain ⟨h8, h9⟩ := takeVectors_some h7
        have : e.2.1 ∈ o.map Prod.fst := by rw [h8]; exact List.mem_map_of_mem h2
        obtain ⟨r, hr', he'⟩ := List.mem_map.1 this
        rw [← he']
        exact ⟨_, h9 r hr'⟩
      · obtain ⟨_, first, hf, hne, _⟩ := mergePartitions_some hx
        obtain ⟨⟨rows, b⟩, ht, rfl⟩ := List.mem_map.1 hf
        have hne : rows ≠ [] := by
          intro e
          apply hne
          simp only
          rw [e]
          rfl
        obtain ⟨i, hi'⟩ := List.mem_iff_getElem?.1 ht
        obtain ⟨p, hp, htp⟩ := mapM_back hm hi'
        have hpn : p < c.nparts := List.mem_range.1 (List.mem_of_getElem? hp)
        obtain ⟨old, new, sz, h5, h6, h7, h8⟩ := takePartition_some htp
        by_cases hv : vectorsOf un = []
        · right
          have hnew : new = [] := by
            rcases h8 with ⟨_, e, _⟩ | ⟨e1, b', e2, _⟩
            · exact e
            · obtain ⟨sz', e3, _, e4⟩ := hro p hpn
              rw [h6] at e3
              cases e3
              obtain ⟨rows', e5, e6⟩ := e4 e1
              rw [e2] at e5
              cases e5
              rw [hv] at e6
              exact List.Perm.eq_nil e6
          have hold : old.flatten ≠ [] := by
            intro e
            rw [h7, hnew, e] at hne
            exact hne rfl
          obtain ⟨r, hr'⟩ := List.exists_mem_of_ne_nil _ hold
          obtain ⟨o, ho', hro'⟩ := List.mem_flatten.1 hr'
          obtain ⟨j, hj⟩ := List.mem_iff_getElem?.1 ho'
          obtain ⟨x', hx1, hx2⟩ := mapM_back h5 hj
          obtain ⟨d, hd, rfl⟩ := List.mem_map.1 (List.mem_of_getElem? hx1)
          obtain ⟨parts, hok⟩ := ho.1 d hd
          rw [hok.file.2] at hx2
          cases hpp : parts[p]? with
          | none => rw [hpp] at hx2; cases hx2
          | some rs =>
            rw [hpp] at hx2
            obtain ⟨h9, _⟩ := takeVectors_some hx2
            refine ⟨d, hd, ?_⟩
            intro e
            have : r.1 ∈ rs.map Prod.fst := by rw [← h9]; exact List.mem_map_of_mem hro'
            obtain ⟨r', hr'', _⟩ := List.mem_map.1 this
            have : (p, r') ∈ d.file.entries := (mem_entries hok.file).2 ⟨rs, hpp, hr''⟩
            rw [e] at this
            cases this
        · exact Or.inl hv
  · rintro ⟨hlive, hsome⟩
    have hold : ∀ p, p < c.nparts → ∃ old, (olds.map Delta.file).mapM (fun x => (x.load p).bind (fun rows => takeVectors frags (rows.map Prod.fst))) = some old := by
      intro p hp
      apply mapM_exists
      intro x hx
      obtain ⟨d, hd, rfl⟩ := List.mem_map.1 hx
      obtain ⟨parts, hok⟩ := ho.1 d hd
      have hpp : parts[p]? = some (parts[p]'(by rw [hok.nparts]; exact hp)) := List.getElem?_eq_getElem _
      rw [hok.file.2, hpp]
      simp only [Option.bind_some]
      generalize parts[p]'(by rw [hok.nparts]; exact hp) = rows at hpp
      have hall : ∀ r ∈ rows, ∃ v, lookup frags r.1 = some (some v) := by
        intro r hr'
        obtain ⟨w, hw⟩ := hlive d hd (p, r) ((mem_entries hok.file).2 ⟨rows, hpp, hr'⟩)
        obtain ⟨v, rfl, _⟩ := hok.sound p rows hpp r hr' w hw
        exact ⟨v, hw⟩
      by_cases hrow : rows = []
      · subst hrow
        exact ⟨[], rfl⟩
      · obtain ⟨r0, hr0⟩ := List.exists_mem_of_ne_nil _ hrow
        obtain ⟨v0, _⟩ := hall r0 hr0
        refine ⟨_, takeVectors_ok (fun a => ((lookup frags a).bind id).getD v0) ?_⟩
        intro a ha
        obtain ⟨r, hr', rfl⟩ := List.mem_map.1 ha
        obtain ⟨v, hv⟩ := hall r hr'
        rw [hv]
        rfl
    have hall : ∀ p ∈ List.range c.nparts, ∃ rb, takePartition frags (olds.map Delta.file) reader p = some rb := by
      intro p hp
      rw [List.mem_range] at hp
      obtain ⟨old, h1⟩ := hold p hp
      obtain ⟨sz, h2, _, h3⟩ := hro p hp
      obtain ⟨rows, b, h4⟩ := takePartition_ok h1 h2 (fun h => by
        obtain ⟨rows, e, _⟩ := h3 h
        exact ⟨_, e⟩)
      exact ⟨_, h4⟩
    obtain ⟨taken, hm⟩ := mapM_exists hall
    rw [hm]
    simp only
    suffices h : ∃ p ∈ taken, p.1 ≠ [] by
      obtain ⟨tp, h1, h2⟩ := h
      obtain ⟨x, _, hx, _⟩ := mergePartitions_spec (parts := taken.map (fun p => (p.1.map (fun r => (r.1, c.quant r.2)), p.2)))
        ⟨_, List.mem_map_of_mem h1, by simpa using h2⟩
      exact ⟨x, hx⟩
    rcases hsome with hv | ⟨d, hd, hne⟩
    · obtain ⟨x, hx⟩ := List.exists_mem_of_ne_nil _ hv
      obtain ⟨⟨rows, b⟩, h1, h2⟩ := mapM_ok hm (List.mem_range.2 (pid_lt hc x.2))
      refine ⟨(rows, b), h1, ?_⟩
      obtain ⟨old, new, sz, h5, h6, h7, h8⟩ := takePartition_some h2
      obtain ⟨sz', e1, e2, e3⟩ := hro _ (pid_lt hc x.2)
      rw [h6] at e1
      cases e1
      rcases h8 with ⟨e, _⟩ | ⟨e, b', e4, _⟩
      · exact absurd rfl (e2 e x hx)
      · obtain ⟨rows', e5, e6⟩ := e3 e
        rw [e4] at e5
        cases e5
        intro e7
        simp only at e7
        rw [h7, List.append_eq_nil_iff] at e7
        rw [e7.2] at e6
        have := List.Perm.eq_nil e6.symm
        rw [List.map_eq_nil_iff, List.filter_eq_nil_iff] at this
        exact absurd (by simp) (this x hx)
    · obtain ⟨e, he⟩ := List.exists_mem_of_ne_nil _ hne
      obtain ⟨parts, hok⟩ := ho.1 d hd
      obtain ⟨rs, e1, e2⟩ := (mem_entries hok.file).1 he
      have hp : e.1 < c.nparts := by
        rw [← hok.nparts]
        exact (List.getElem?_eq_some_iff.1 e1).1
      obtain ⟨⟨rows, b⟩, h1, h2⟩ := mapM_ok hm (List.mem_range.2 hp)
      refine ⟨(rows, b), h1, ?_⟩
      obtain ⟨old, new, sz, h5, h6, h7, h8⟩ := takePartition_some h2
      obtain ⟨o, h9, h10⟩ := mapM_ok h5 (List.mem_map_of_mem hd)
      rw [hok.file.2, e1] at h10
      obtain ⟨h11, _⟩ := takeVectors_some h10
      intro e7
      simp only at e7
      rw [h7, List.append_eq_nil_iff] at e7
      have hmem : e.2.1 ∈ o.map Prod.fst := by rw [h11]; exact List.mem_map_of_mem e2
      obtain ⟨r, hr', _⟩ := List.mem_map.1 hmem
      have : r ∈ old.flatten := List.mem_flatten.2 ⟨o, h9, hr'⟩
      rw [e7.1] at this
      cases this

/-- A remapping succeeds iff the partition id column is not in the file and a row stays. -/
theorem remap_some_iff {x : IndexFile C} {parts : List (List (Addr × C))} (h : FileOk x parts) (mapping : Addr → Option (Option Addr)) :
    (∃ y, x.remap mapping = some y) ↔ x.partCol = false ∧ ∃ e ∈ x.entries, mapping e.2.1 ≠ some none := by
  have hload : (List.range x.nparts).mapM x.load = some parts := by
    obtain ⟨out, ho⟩ := mapM_exists (f := x.load) (l := List.range x.nparts) (by
      intro p hp
      rw [h.2 p]
      rw [h.1, List.mem_range] at hp
      exact ⟨_, List.getElem?_eq_getElem hp⟩)
    have hl := (mapM_some ho).1
    rw [List.length_range, h.1] at hl
    rw [ho]
    congr 1
    apply List.ext_getElem?
    intro p
    by_cases hp : p < parts.length
    · obtain ⟨b, h1, h2⟩ := (mapM_some ho).2 p p (List.getElem?_range (by rw [h.1]; exact hp))
      rw [h1, ← h2, h.2]
    · rw [List.getElem?_eq_none (by omega), List.getElem?_eq_none (by omega)]
  have hrow : ∀ rows : List (Addr × C), remapRows mapping rows ≠ [] ↔ ∃ r ∈ rows, mapping r.1 ≠ some none := by
    intro rows
    constructor
    · intro hne
      obtain ⟨r', hr'⟩ := List.exists_mem_of_ne_nil _ hne
      obtain ⟨r, hr, _, hm⟩ := mem_remapRows.1 hr'
      refine ⟨r, hr, ?_⟩
      rcases hm with hm | ⟨hm, _⟩ <;> rw [hm] <;> simp
    · rintro ⟨r, hr, hm⟩ e
      cases hmr : mapping r.1 with
      | none =>
        have : r ∈ remapRows mapping rows := mem_remapRows.2 ⟨r, hr, rfl, Or.inr ⟨hmr, rfl⟩⟩
        rw [e] at this
        cases this
      | some w =>
        cases w with
        | none => exact hm hmr
        | some a =>
          have : (a, r.2) ∈ remapRows mapping rows := mem_remapRows.2 ⟨r, hr, rfl, Or.inl hmr⟩
          rw [e] at this
          cases this
  unfold IndexFile.remap
  cases hpc : x.partCol with
  | true => simp
  | false =>
    simp only [Bool.false_eq_true, if_false, true_and]
    rw [hload]
    simp only
    constructor
    · rintro ⟨y, hy⟩
      obtain ⟨_, first, hf, hne, _⟩ := mergePartitions_some hy
      obtain ⟨rows, hr, rfl⟩ := List.mem_map.1 hf
      obtain ⟨r, hrm, hm⟩ := (hrow rows).1 hne
      obtain ⟨p, hp⟩ := List.mem_iff_getElem?.1 hr
      exact ⟨(p, r), (mem_entries h).2 ⟨rows, hp, hrm⟩, hm⟩
    · rintro ⟨e, he, hm⟩
      obtain ⟨rows, h1, h2⟩ := (mem_entries h).1 he
      obtain ⟨y, _, hy, _⟩ := mergePartitions_spec (parts := parts.map (fun rows => (remapRows mapping rows, false)))
        ⟨_, List.mem_map_of_mem (List.mem_of_getElem? h1), (hrow rows).2 ⟨e.2, h2, hm⟩⟩
      exact ⟨y, hy⟩

end Verif.Vec
