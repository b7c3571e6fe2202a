import Verif.Vec.LemmasBuild
namespace Verif.Vec
variable {V C : Type}

theorem mapM_some {α β : Type} {f : α → Option β} : ∀ {l : List α} {out : List β}, l.mapM f = some out →
    out.length = l.length ∧ ∀ (i : Nat) (a : α), l[i]? = some a → ∃ b, out[i]? = some b ∧ f a = some b := by
  intro l
  induction l with
  | nil => intro out h; cases h; exact ⟨rfl, by intro i a h; cases h⟩
  | cons x xs ih =>
    intro out h
    rw [List.mapM_cons] at h
    cases hx : f x with
    | none => simp [hx] at h
    | some y =>
      cases hr : xs.mapM f with
      | none => simp [hx, hr] at h
      | some ys =>
        simp [hx, hr] at h
        subst h
        obtain ⟨h1, h2⟩ := ih hr
        refine ⟨by simp [h1], ?_⟩
        intro i a hi
        cases i with
        | zero => cases hi; exact ⟨y, rfl, hx⟩
        | succ i => exact h2 i a hi

theorem mapM_exists {α β : Type} {f : α → Option β} : ∀ {l : List α}, (∀ a ∈ l, ∃ b, f a = some b) → ∃ out, l.mapM f = some out := by
  intro l
  induction l with
  | nil => intro _; exact ⟨[], rfl⟩
  | cons x xs ih =>
    intro h
    obtain ⟨y, hy⟩ := h x List.mem_cons_self
    obtain ⟨ys, hys⟩ := ih (fun a ha => h a (List.mem_cons_of_mem _ ha))
    exact ⟨y :: ys, by rw [List.mapM_cons, hy, hys]; rfl⟩

theorem mapM_back {α β : Type} {f : α → Option β} {l : List α} {out : List β} (h : l.mapM f = some out) {i : Nat} {b : β} (hb : out[i]? = some b) :
    ∃ a, l[i]? = some a ∧ f a = some b := by
  obtain ⟨h1, h2⟩ := mapM_some h
  have hi : i < l.length := by
    rw [← h1]
    exact (List.getElem?_eq_some_iff.1 hb).1
  obtain ⟨b', h3, h4⟩ := h2 i l[i] (List.getElem?_eq_getElem hi)
  rw [hb] at h3
  cases h3
  exact ⟨_, List.getElem?_eq_getElem hi, h4⟩

/-- A delta holds what it covers. `raw` is whether merged rows may have codes of their plain vectors. -/
structure DeltaOk (raw : Bool) (c : Cfg V C) (frags : List (Frag V)) (d : Delta C) (parts : List (List (Addr × C))) : Prop where
  file : FileOk d.file parts
  nparts : parts.length = c.nparts
  nodup : ∀ (p : Nat) rows, parts[p]? = some rows → (rows.map Prod.fst).Nodup
  bitmap : ∀ (p : Nat) rows, parts[p]? = some rows → ∀ r ∈ rows, r.1.1 ∈ d.bitmap
  offset : ∀ (p : Nat) rows, parts[p]? = some rows → ∀ r ∈ rows, ∀ f ∈ frags, f.id = r.1.1 → r.1.2 < f.rows.length
  sound : ∀ (p : Nat) rows, parts[p]? = some rows → ∀ r ∈ rows, ∀ w, lookup frags r.1 = some w →
    ∃ v, w = some v ∧ c.pid v = p ∧ (r.2 = c.quant (c.fresh v) ∨ (raw = true ∧ r.2 = c.quant v))
  complete : ∀ a v, lookup frags a = some (some v) → a.1 ∈ d.bitmap → ∃ rows, parts[c.pid v]? = some rows ∧ a ∈ rows.map Prod.fst
  partCol : d.file.partCol = true → c.nparts = 1

theorem pid_lt {c : Cfg V C} (hc : c.Valid) (v : V) : c.pid v < c.nparts := by
  unfold Cfg.pid
  cases h : c.part (c.norm v) with
  | none => exact hc.pos
  | some p => exact hc.part _ _ h

/-- Deltas with their partitions. -/
def Deltas (raw : Bool) (c : Cfg V C) (frags : List (Frag V)) (ds : List (Delta C)) : Prop :=
  (∀ d ∈ ds, ∃ parts, DeltaOk raw c frags d parts) ∧ ds.Pairwise (fun d e => ∀ i ∈ d.bitmap, i ∉ e.bitmap)

theorem takePartition_some {frags : List (Frag V)} {olds : List (IndexFile C)} {reader : Reader V} {p : Nat} {rows : List (Addr × V)} {b : Bool}
    (h : takePartition frags olds reader p = some (rows, b)) :
    ∃ old new sz, olds.mapM (fun x => (x.load p).bind (fun rows => takeVectors frags (rows.map Prod.fst))) = some old ∧ reader.size p = some sz ∧
      rows = old.flatten ++ new ∧ ((sz = 0 ∧ new = [] ∧ b = false) ∨ (0 < sz ∧ ∃ b', reader.read p = some (new, b') ∧ b = (old.flatten.isEmpty && b'))) := by
  unfold takePartition at h
  cases ho : olds.mapM (fun x => (x.load p).bind (fun rows => takeVectors frags (rows.map Prod.fst))) with
  | none => rw [ho] at h; cases h
  | some old =>
    rw [ho] at h
    cases hs : reader.size p with
    | none => rw [hs] at h; cases h
    | some sz =>
      rw [hs] at h
      simp only at h
      split at h
      · rename_i hsz
        cases hr : reader.read p with
        | none => rw [hr] at h; cases h
        | some rb =>
          rw [hr] at h
          cases h
          exact ⟨old, rb.1, sz, rfl, rfl, rfl, Or.inr ⟨hsz, rb.2, rfl, rfl⟩⟩
      · rename_i hsz
        cases h
        exact ⟨old, [], sz, rfl, rfl, by simp, Or.inl ⟨by omega, rfl, rfl⟩⟩

theorem nodup_flatten {α : Type} : ∀ {ls : List (List α)}, (∀ l ∈ ls, l.Nodup) → ls.Pairwise (fun a b => ∀ x ∈ a, x ∉ b) → ls.flatten.Nodup := by
  intro ls
  induction ls with
  | nil => intro _ _; exact List.nodup_nil
  | cons l ls ih =>
    intro h1 h2
    obtain ⟨h3, h4⟩ := List.pairwise_cons.1 h2
    rw [List.flatten_cons, List.nodup_append]
    refine ⟨h1 l List.mem_cons_self, ih (fun x hx => h1 x (List.mem_cons_of_mem _ hx)) h4, ?_⟩
    intro a ha b hb e
    subst e
    obtain ⟨m, hm, hb⟩ := List.mem_flatten.1 hb
    exact h3 m hm a ha hb

theorem ids_sub {frags un : List (Frag V)} (hi : Ids frags) (hun : un.Sublist frags) : Ids un := (hun.map _).nodup hi

theorem lookup_sub {frags un : List (Frag V)} (hi : Ids frags) (hun : un.Sublist frags) {a : Addr} {v : Option V} :
    lookup un a = some v ↔ lookup frags a = some v ∧ a.1 ∈ un.map Frag.id := by
  rw [lookup_iff hi, lookup_iff (ids_sub hi hun)]
  constructor
  · rintro ⟨f, hf, h⟩
    exact ⟨⟨f, hun.mem hf, h⟩, by rw [(mem_scan.1 h).1]; exact List.mem_map_of_mem hf⟩
  · rintro ⟨⟨f, hf, h⟩, hm⟩
    obtain ⟨g, hg, he⟩ := List.mem_map.1 hm
    have h1 := find_frag hi hf
    have h2 := find_frag hi (hun.mem hg)
    rw [he, (mem_scan.1 h).1, h1] at h2
    cases h2
    exact ⟨f, hg, h⟩

theorem pairwise_getElem {α : Type} {R : α → α → Prop} {l : List α} (h : l.Pairwise R) {i j : Nat} {a b : α} (ha : l[i]? = some a) (hb : l[j]? = some b)
    (hij : i < j) : R a b := by
  obtain ⟨h1, rfl⟩ := List.getElem?_eq_some_iff.1 ha
  obtain ⟨h2, rfl⟩ := List.getElem?_eq_some_iff.1 hb
  exact List.pairwise_iff_getElem.1 h i j h1 h2 hij

/-- What `build` writes. -/
theorem build_ok {raw raw' : Bool} {c : Cfg V C} (hc : c.Valid) {frags un : List (Frag V)} (hi : Ids frags) (hun : un.Sublist frags)
    {olds : List (Delta C)} (ho : Deltas raw c frags olds) (hdis : ∀ f ∈ un, ∀ d ∈ olds, f.id ∉ d.bitmap)
    (hraw : olds = [] ∨ raw' = true) {data : Option (List (Addr × V))} (hdata : data.getD (vectorsOf frags) = vectorsOf un)
    {x : IndexFile C} (h : c.build frags (olds.map Delta.file) data = some x) :
    ∃ parts, DeltaOk raw' c frags ⟨x, un.map Frag.id ++ olds.flatMap Delta.bitmap⟩ parts := by
  unfold Cfg.build at h
  rw [hdata] at h
  obtain ⟨reader, hr, hro⟩ := shuffleData_spec hc (vectorsOf un)
  rw [hr] at h
  simp only at h
  unfold Cfg.buildWith at h
  cases hm : (List.range c.nparts).mapM (takePartition frags (olds.map Delta.file) reader) with
  | none => rw [hm] at h; cases h
  | some taken =>
    rw [hm] at h
    simp only at h
    obtain ⟨hfile, first, hfirst, hfne, hpc⟩ := mergePartitions_some h
    have hiu := ids_sub hi hun
    have hlen : taken.length = c.nparts := by rw [(mapM_some hm).1, List.length_range]
    -- what is in a partition
    have key : ∀ (p : Nat) (rows : List (Addr × V)) (b : Bool), taken[p]? = some (rows, b) → p < c.nparts ∧ (rows.map Prod.fst).Nodup ∧
        (∀ r ∈ rows, (r.1.1 ∈ un.map Frag.id ∨ r.1.1 ∈ olds.flatMap Delta.bitmap) ∧
          ∃ v, lookup frags r.1 = some (some v) ∧ c.pid v = p ∧ (r.2 = c.fresh v ∨ (raw' = true ∧ r.2 = v))) ∧
        (∀ a v, lookup frags a = some (some v) → c.pid v = p → (a.1 ∈ un.map Frag.id ∨ a.1 ∈ olds.flatMap Delta.bitmap) → a ∈ rows.map Prod.fst) ∧
        (b = true → c.nparts = 1) := by
      intro p rows b hp
      obtain ⟨p', hp', htk⟩ := mapM_back hm hp
      have hpn : p < c.nparts := by
        have := (List.getElem?_eq_some_iff.1 hp).1
        omega
      rw [List.getElem?_range hpn] at hp'
      cases hp'
      obtain ⟨old, new, sz, h1, h2, h3, h4⟩ := takePartition_some htk
      obtain ⟨h1l, _⟩ := mapM_some h1
      obtain ⟨sz', h2', hz, hnz⟩ := hro p hpn
      rw [h2] at h2'
      cases h2'
      -- the new rows
      have hnew : new.Perm (((vectorsOf un).filter (fun x => c.pid x.2 == p)).map (fun x => (x.1, c.fresh x.2))) ∧ (b = true → c.nparts = 1) := by
        rcases h4 with ⟨e1, rfl, rfl⟩ | ⟨e1, b', e2, e3⟩
        · refine ⟨?_, by intro e; cases e⟩
          have : (vectorsOf un).filter (fun x => c.pid x.2 == p) = [] := by
            rw [List.filter_eq_nil_iff]
            intro y hy
            simpa using hz e1 y hy
          rw [this]
          exact List.Perm.refl _
        · obtain ⟨rows', e4, e5⟩ := hnz e1
          rw [e2] at e4
          cases e4
          refine ⟨e5, ?_⟩
          intro e
          rw [e, eq_comm, Bool.and_eq_true] at e3
          simpa using e3.2
      have hnewmem : ∀ r ∈ new, r.1.1 ∈ un.map Frag.id ∧ ∃ v, lookup frags r.1 = some (some v) ∧ c.pid v = p ∧ r.2 = c.fresh v := by
        intro r hr
        obtain ⟨y, hy, rfl⟩ := List.mem_map.1 (hnew.1.mem_iff.1 hr)
        obtain ⟨hy1, hy2⟩ := List.mem_filter.1 hy
        obtain ⟨e1, e2⟩ := (lookup_sub hi hun).1 ((mem_vectorsOf hiu).1 hy1)
        exact ⟨e2, y.2, e1, by simpa using hy2, rfl⟩
      -- the old rows
      have hold : ∀ (i : Nat) (o : List (Addr × V)), old[i]? = some o → ∃ d parts rs, olds[i]? = some d ∧ DeltaOk raw c frags d parts ∧ parts[p]? = some rs ∧
          o.map Prod.fst = rs.map Prod.fst ∧ ∀ r ∈ o, lookup frags r.1 = some (some r.2) := by
        intro i o hio
        obtain ⟨xf, hx, hx2⟩ := mapM_back h1 hio
        rw [List.getElem?_map] at hx
        cases hd : olds[i]? with
        | none => rw [hd] at hx; cases hx
        | some d =>
          rw [hd] at hx
          cases hx
          obtain ⟨parts, hok⟩ := ho.1 d (List.mem_of_getElem? hd)
          rw [hok.file.2 p] at hx2
          cases hpp : parts[p]? with
          | none => rw [hpp] at hx2; cases hx2
          | some rs =>
            rw [hpp] at hx2
            obtain ⟨e1, e2⟩ := takeVectors_some hx2
            exact ⟨d, parts, rs, rfl, hok, hpp, e1, e2⟩
      have holdmem : ∀ r ∈ old.flatten, ∃ d ∈ olds, r.1.1 ∈ d.bitmap ∧ lookup frags r.1 = some (some r.2) ∧ c.pid r.2 = p := by
        intro r hr
        obtain ⟨o, ho', hr⟩ := List.mem_flatten.1 hr
        obtain ⟨i, hio⟩ := List.mem_iff_getElem?.1 ho'
        obtain ⟨d, parts, rs, e1, hok, e2, e3, e4⟩ := hold i o hio
        have hmem : r.1 ∈ rs.map Prod.fst := by rw [← e3]; exact List.mem_map_of_mem hr
        obtain ⟨r', hr', he⟩ := List.mem_map.1 hmem
        have hl := e4 r hr
        refine ⟨d, List.mem_of_getElem? e1, by rw [← he]; exact hok.bitmap p rs e2 r' hr', hl, ?_⟩
        obtain ⟨v, hv, hp2, _⟩ := hok.sound p rs e2 r' hr' (some r.2) (by rw [he]; exact hl)
        cases hv
        exact hp2
      refine ⟨hpn, ?_, ?_, ?_, hnew.2⟩
      · rw [h3, List.map_append, List.nodup_append]
        refine ⟨?_, ?_, ?_⟩
        · rw [List.map_flatten]
          apply nodup_flatten
          · intro l hl
            obtain ⟨o, ho', rfl⟩ := List.mem_map.1 hl
            obtain ⟨i, hio⟩ := List.mem_iff_getElem?.1 ho'
            obtain ⟨d, parts, rs, e1, hok, e2, e3, e4⟩ := hold i o hio
            rw [e3]
            exact hok.nodup p rs e2
          · rw [List.pairwise_iff_getElem]
            intro i j hi' hj' hij a ha hb
            rw [List.length_map] at hi' hj'
            rw [List.getElem_map] at ha hb
            obtain ⟨d, parts, rs, e1, hok, e2, e3, e4⟩ := hold i old[i] (List.getElem?_eq_getElem hi')
            obtain ⟨d', parts', rs', e1', hok', e2', e3', e4'⟩ := hold j old[j] (List.getElem?_eq_getElem hj')
            rw [e3] at ha
            rw [e3'] at hb
            obtain ⟨r, hr, hra⟩ := List.mem_map.1 ha
            obtain ⟨r', hr', hra'⟩ := List.mem_map.1 hb
            have b1 := hok.bitmap p rs e2 r hr
            have b2 := hok'.bitmap p rs' e2' r' hr'
            rw [hra] at b1
            rw [hra'] at b2
            exact pairwise_getElem ho.2 e1 e1' hij a.1 b1 b2
        · refine ((hnew.1.map Prod.fst).nodup_iff).2 ?_
          rw [List.map_map]
          exact ((List.filter_sublist (l := vectorsOf un)).map Prod.fst).nodup (vectorsOf_nodup hiu)
        · intro a ha b' hb e
          subst e
          obtain ⟨r, hr, hra⟩ := List.mem_map.1 ha
          obtain ⟨r', hr', hra'⟩ := List.mem_map.1 hb
          obtain ⟨d, hd, hbm, _⟩ := holdmem r hr
          obtain ⟨hu, _⟩ := hnewmem r' hr'
          rw [hra'] at hu
          rw [hra] at hbm
          obtain ⟨f, hf, hfe⟩ := List.mem_map.1 hu
          exact hdis f hf d hd (by rw [hfe]; exact hbm)
      · intro r hr
        rw [h3] at hr
        rcases List.mem_append.1 hr with hr | hr
        · obtain ⟨d, hd, hbm, hl, hp2⟩ := holdmem r hr
          refine ⟨Or.inr (List.mem_flatMap.2 ⟨d, hd, hbm⟩), r.2, hl, hp2, Or.inr ⟨?_, rfl⟩⟩
          rcases hraw with rfl | hraw
          · cases hd
          · exact hraw
        · obtain ⟨hu, v, hl, hp2, he⟩ := hnewmem r hr
          exact ⟨Or.inl hu, v, hl, hp2, Or.inl he⟩
      · intro a v hl hp2 hcov
        rw [h3, List.map_append, List.mem_append]
        rcases hcov with hcov | hcov
        · right
          refine (hnew.1.map Prod.fst).mem_iff.2 ?_
          rw [List.map_map, List.mem_map]
          exact ⟨(a, v), List.mem_filter.2 ⟨(mem_vectorsOf hiu).2 ((lookup_sub hi hun).2 ⟨hl, hcov⟩), by simpa using hp2⟩, rfl⟩
        · left
          obtain ⟨d, hd, hbm⟩ := List.mem_flatMap.1 hcov
          obtain ⟨i, hid⟩ := List.mem_iff_getElem?.1 hd
          have hio : i < old.length := by
            rw [h1l, List.length_map]
            exact (List.getElem?_eq_some_iff.1 hid).1
          obtain ⟨d', parts, rs, e1, hok, e2, e3, e4⟩ := hold i old[i] (List.getElem?_eq_getElem hio)
          rw [hid] at e1
          cases e1
          obtain ⟨rs', e5, e6⟩ := hok.complete a v hl hbm
          rw [hp2, e2] at e5
          cases e5
          rw [List.map_flatten, List.mem_flatten]
          exact ⟨_, List.mem_map_of_mem (List.getElem_mem hio), by rw [e3]; exact e6⟩
    have part_at : ∀ (p : Nat) rows, ((taken.map (fun p => (p.1.map (fun r => (r.1, c.quant r.2)), p.2))).map Prod.fst)[p]? = some rows →
        ∃ rs b, taken[p]? = some (rs, b) ∧ rows = rs.map (fun r => (r.1, c.quant r.2)) := by
      intro p rows hp
      rw [List.map_map, List.getElem?_map] at hp
      cases ht : taken[p]? with
      | none => rw [ht] at hp; cases hp
      | some rb =>
        rw [ht] at hp
        cases hp
        exact ⟨rb.1, rb.2, rfl, rfl⟩
    refine ⟨_, hfile, by rw [List.length_map, List.length_map, hlen], ?_, ?_, ?_, ?_, ?_, ?_⟩
    · intro p rows hp
      obtain ⟨rs, b, e1, rfl⟩ := part_at p rows hp
      rw [List.map_map]
      exact (key p rs b e1).2.1
    · intro p rows hp r hr
      obtain ⟨rs, b, e1, rfl⟩ := part_at p rows hp
      obtain ⟨r', hr', rfl⟩ := List.mem_map.1 hr
      exact List.mem_append.2 ((key p rs b e1).2.2.1 r' hr').1
    · intro p rows hp r hr f hf hfe
      obtain ⟨rs, b, e1, rfl⟩ := part_at p rows hp
      obtain ⟨r', hr', rfl⟩ := List.mem_map.1 hr
      obtain ⟨_, v, hl, _⟩ := (key p rs b e1).2.2.1 r' hr'
      obtain ⟨g, hg, hs⟩ := (lookup_iff hi).1 hl
      obtain ⟨e2, e3, e4⟩ := mem_scan.1 hs
      have h1 := find_frag hi hf
      have h2 := find_frag hi hg
      rw [hfe, e2, h2] at h1
      cases h1
      exact (List.getElem?_eq_some_iff.1 e4).1
    · intro p rows hp r hr w hl
      obtain ⟨rs, b, e1, rfl⟩ := part_at p rows hp
      obtain ⟨r', hr', rfl⟩ := List.mem_map.1 hr
      obtain ⟨_, v, hl', hp2, hcode⟩ := (key p rs b e1).2.2.1 r' hr'
      simp only at hl
      rw [hl'] at hl
      cases hl
      refine ⟨v, rfl, hp2, ?_⟩
      rcases hcode with e | ⟨e, e'⟩
      · exact Or.inl (by rw [e])
      · exact Or.inr ⟨e, by rw [e']⟩
    · intro a v hl hcov
      have hpn := pid_lt hc v
      have htk : taken[c.pid v]? = some (taken[c.pid v]'(by omega)) := List.getElem?_eq_getElem (by omega)
      refine ⟨_, by rw [List.map_map, List.getElem?_map, htk]; rfl, ?_⟩
      have := (key _ _ _ htk).2.2.2.1 a v hl rfl (List.mem_append.1 hcov)
      simpa [List.map_map, Function.comp_def] using this
    · intro e
      rw [hpc] at e
      obtain ⟨t, ht, rfl⟩ := List.mem_map.1 hfirst
      obtain ⟨i, hi'⟩ := List.mem_iff_getElem?.1 ht
      exact (key i t.1 t.2 hi').2.2.2.2 e

end Verif.Vec
