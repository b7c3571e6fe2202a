import Verif.Vec.LemmasSuff
import Verif.Vec.LemmasStep
namespace Verif.Vec
variable {V C : Type}

/-! ### Flat search -/

theorem inRange_between (q : Query) (d : Nat) : q.inRange d = decide (Between q.lower q.upper d) := by
  rw [Bool.eq_iff_iff, decide_eq_true_eq]
  unfold Query.inRange Between
  cases q.lower <;> cases q.upper <;> simp

/-- The candidates among scanned rows. -/
def candsOf (q : Query) (m : Dist V C) (rows : List (Addr × Option V)) : List (Addr × Nat) :=
  rows.filterMap (fun r => r.2.bind (fun v => if q.inRange (m.dist v) then some (r.1, m.dist v) else none))

theorem take_filterMap_some {α β : Type} (g : α → Option β) : ∀ (k : Nat) (l : List α), (∀ x ∈ l, (g x).isSome = true) →
    (l.take k).filterMap g = (l.filterMap g).take k := by
  intro k l
  induction l generalizing k with
  | nil => intro _; simp
  | cons x xs ih =>
    intro h
    cases k with
    | zero => rfl
    | succ k =>
      have hx := h x List.mem_cons_self
      cases hg : g x with
      | none => rw [hg] at hx; cases hx
      | some y =>
        rw [List.take_succ_cons, List.filterMap_cons, List.filterMap_cons, hg]
        simp only [List.take_succ_cons]
        rw [ih k (fun z hz => h z (List.mem_cons_of_mem _ hz))]

theorem flatKnn_eq (srt : Srt) (q : Query) (m : Dist V C) (rows : List (Addr × Option V)) :
    ∃ l : List (Addr × Nat), flatKnn srt q m rows = l.take q.k ∧ l.Pairwise (fun a b => a.2 ≤ b.2) ∧ l.Perm (candsOf q m rows) := by
  unfold flatKnn
  simp only
  generalize hds : rows.map (fun r => (r.1, r.2.map m.dist)) = ds
  generalize hinr : (if q.lower.isSome || q.upper.isSome then ds.filter (fun r => r.2.any q.inRange) else ds) = inr
  let g : Addr × Option Nat → Option (Addr × Nat) := fun r => r.2.map (fun d => (r.1, d))
  let srted := srt.sort (fun r : Addr × Option Nat => r.2.getD 0) (inr.filter (fun r => r.2.isSome))
  have hmem : ∀ x ∈ srted, x.2.isSome = true := by
    intro x hx
    have := (srt.perm _ _).mem_iff.1 hx
    exact (List.mem_filter.1 this).2
  refine ⟨srted.filterMap g, ?_, ?_, ?_⟩
  · rw [List.take_append, List.filterMap_append]
    have h0 : ((inr.filter (fun r => r.2.isNone)).take (q.k - srted.length)).filterMap g = [] := by
      rw [List.filterMap_eq_nil_iff]
      intro r hr
      have := (List.mem_filter.1 (List.mem_of_mem_take hr)).2
      show r.2.map _ = none
      rw [Option.isNone_iff_eq_none.1 this]
      rfl
    show (srted.take q.k).filterMap g ++ ((inr.filter (fun r => r.2.isNone)).take (q.k - srted.length)).filterMap g = _
    rw [h0, List.append_nil]
    apply take_filterMap_some
    intro x hx
    show (x.2.map _).isSome = true
    rw [Option.isSome_map]
    exact hmem x hx
  · have hs := srt.sorted (fun r : Addr × Option Nat => r.2.getD 0) (inr.filter (fun r => r.2.isSome))
    rw [List.pairwise_filterMap]
    refine List.Pairwise.imp ?_ hs
    intro a b hab x hx y hy
    obtain ⟨a1, a2⟩ := a
    obtain ⟨b1, b2⟩ := b
    cases a2 with
    | none => cases hx
    | some d =>
      cases b2 with
      | none => cases hy
      | some e =>
        cases hx
        cases hy
        exact hab
  · have h1 : (srted.filterMap g).Perm ((inr.filter (fun r => r.2.isSome)).filterMap g) := (srt.perm _ _).filterMap g
    refine h1.trans ?_
    have h2 : (inr.filter (fun r => r.2.isSome)).filterMap g = inr.filterMap g := by
      rw [List.filterMap_filter]
      congr 1
      funext r
      obtain ⟨a, d⟩ := r
      cases d <;> rfl
    rw [h2]
    have h3 : inr = ds.filter (fun r => r.2.isNone && !(q.lower.isSome || q.upper.isSome) || r.2.any q.inRange) := by
      rw [← hinr]
      by_cases hb : (q.lower.isSome || q.upper.isSome) = true
      · rw [if_pos hb, hb]
        congr 1
        funext r
        simp
      · rw [if_neg hb]
        rw [Bool.not_eq_true] at hb
        rw [hb]
        symm
        rw [List.filter_eq_self]
        intro r _
        obtain ⟨a, d⟩ := r
        rw [Bool.or_eq_false_iff] at hb
        have hl : q.lower = none := by cases hq : q.lower with
          | none => rfl
          | some v => rw [hq] at hb; simp at hb
        have hu : q.upper = none := by cases hq : q.upper with
          | none => rfl
          | some v => rw [hq] at hb; simp at hb
        cases d with
        | none => rfl
        | some d => simp [Query.inRange, hl, hu]
    rw [h3, ← hds, List.filterMap_filter, List.filterMap_map]
    unfold candsOf
    refine List.Perm.of_eq ?_
    congr 1
    funext r
    obtain ⟨a, v⟩ := r
    cases v with
    | none => simp [g]
    | some v => simp [g]

theorem flatKnn_suff (srt : Srt) (q : Query) (m : Dist V C) (rows : List (Addr × Option V)) : Suff q.k (flatKnn srt q m rows) (candsOf q m rows) := by
  obtain ⟨l, h1, h2, h3⟩ := flatKnn_eq srt q m rows
  rw [h1]
  exact Suff.take h2 h3

theorem flatKnn_nearest (srt : Srt) (q : Query) (m : Dist V C) (rows : List (Addr × Option V)) {c : List (Addr × Nat)}
    (h : Suff q.k (candsOf q m rows) c) : Nearest q.k c (flatKnn srt q m rows) := by
  obtain ⟨l, h1, h2, h3⟩ := flatKnn_eq srt q m rows
  rw [h1]
  exact Suff.nearest h2 h3 h

theorem mem_candsOf {q : Query} {m : Dist V C} {rows : List (Addr × Option V)} {x : Addr × Nat} :
    x ∈ candsOf q m rows ↔ ∃ v, (x.1, some v) ∈ rows ∧ x.2 = m.dist v ∧ q.inRange x.2 = true := by
  unfold candsOf
  rw [List.mem_filterMap]
  constructor
  · rintro ⟨⟨a, w⟩, h1, h2⟩
    cases w with
    | none => cases h2
    | some v =>
      simp only [Option.bind_some] at h2
      split at h2
      · rename_i hr
        cases h2
        exact ⟨v, h1, rfl, hr⟩
      · cases h2
  · rintro ⟨v, h1, h2, h3⟩
    refine ⟨_, h1, ?_⟩
    simp only [Option.bind_some]
    rw [← h2, if_pos h3]

theorem candsOf_nodup {q : Query} {m : Dist V C} {rows : List (Addr × Option V)} (h : (rows.map Prod.fst).Nodup) : ((candsOf q m rows).map Prod.fst).Nodup := by
  refine List.Sublist.nodup ?_ h
  clear h
  unfold candsOf
  induction rows with
  | nil => exact List.Sublist.slnil
  | cons r rs ih =>
    obtain ⟨a, w⟩ := r
    rw [List.filterMap_cons, List.map_cons]
    cases w with
    | none => exact List.Sublist.cons _ ih
    | some v =>
      simp only [Option.bind_some]
      by_cases hr : q.inRange (m.dist v) = true
      · rw [if_pos hr]
        exact List.Sublist.cons_cons _ ih
      · rw [if_neg hr]
        exact List.Sublist.cons _ ih

theorem nodup_of_fst {l : List (Addr × Nat)} (h : (l.map Prod.fst).Nodup) : l.Nodup := by
  rw [List.nodup_iff_pairwise_ne, List.pairwise_map] at h
  rw [List.nodup_iff_pairwise_ne]
  exact h.imp (fun hab e => hab (by rw [e]))

theorem candidates_eq (q : Query) (m : Dist V C) (s : State V C) :
    q.candidates m s = candsOf q m ((s.frags.flatMap Frag.scan).filter (fun r => q.fragments.all (fun ids => ids.contains r.1.1) && q.filter.all (fun p => p r.1))) := by
  unfold Query.candidates vectorsOf candsOf
  simp only [← inRange_between]
  rw [List.filterMap_filterMap, List.filterMap_filter]
  congr 1
  funext r
  obtain ⟨a, w⟩ := r
  cases w with
  | none => simp
  | some v =>
    simp only [Option.map_some, Option.bind_some]
    by_cases h1 : (q.fragments.all (fun ids => ids.contains a.1) && q.filter.all (fun p => p a)) = true
    · rw [h1]; simp
    · rw [Bool.not_eq_true] at h1
      rw [h1]; simp

theorem mem_candidates {q : Query} {m : Dist V C} {s : State V C} (hi : Ids s.frags) {x : Addr × Nat} :
    x ∈ q.candidates m s ↔ ∃ v, lookup s.frags x.1 = some (some v) ∧ q.fragments.all (fun ids => ids.contains x.1.1) = true ∧ q.filter.all (fun p => p x.1) = true ∧
      x.2 = m.dist v ∧ q.inRange x.2 = true := by
  rw [candidates_eq, mem_candsOf]
  constructor
  · rintro ⟨v, h1, h2, h3⟩
    obtain ⟨h4, h5⟩ := List.mem_filter.1 h1
    rw [Bool.and_eq_true] at h5
    obtain ⟨f, hf, hs⟩ := List.mem_flatMap.1 h4
    exact ⟨v, (lookup_iff hi).2 ⟨f, hf, hs⟩, h5.1, h5.2, h2, h3⟩
  · rintro ⟨v, h1, h2, h3, h4, h5⟩
    obtain ⟨f, hf, hs⟩ := (lookup_iff hi).1 h1
    exact ⟨v, List.mem_filter.2 ⟨List.mem_flatMap.2 ⟨f, hf, hs⟩, by rw [Bool.and_eq_true]; exact ⟨h2, h3⟩⟩, h4, h5⟩

theorem candidates_nodup {q : Query} {m : Dist V C} {s : State V C} (hi : Ids s.frags) : ((q.candidates m s).map Prod.fst).Nodup := by
  rw [candidates_eq]
  exact candsOf_nodup ((List.filter_sublist.map _).nodup (flatScan_nodup hi))

/-- The rows that a filtered scan returns. -/
theorem filterScan_eq (q : Query) (frags : List (Frag V)) :
    q.filterRows (q.scan frags) = (frags.flatMap Frag.scan).filter (fun r => q.fragments.all (fun ids => ids.contains r.1.1) && q.filter.all (fun p => p r.1)) := by
  have h1 : q.scan frags = (frags.flatMap Frag.scan).filter (fun r => q.fragments.all (fun ids => ids.contains r.1.1)) := by
    unfold Query.scan
    cases hq : q.fragments with
    | none =>
      simp only [Option.all_none]
      exact (List.filter_eq_self.2 (fun _ _ => rfl)).symm
    | some ids =>
      simp only [Option.all_some]
      induction frags with
      | nil => rfl
      | cons f fs ih =>
        rw [List.flatMap_cons, List.filter_append, ← ih, List.filter_cons]
        by_cases hc : ids.contains f.id = true
        · rw [if_pos hc, List.flatMap_cons]
          congr 1
          symm
          rw [List.filter_eq_self]
          intro r hr
          rw [(mem_scan.1 hr).1]
          exact hc
        · rw [if_neg hc]
          have : f.scan.filter (fun r => ids.contains r.1.1) = [] := by
            rw [List.filter_eq_nil_iff]
            intro r hr
            rw [(mem_scan.1 hr).1]
            exact hc
          rw [this, List.nil_append]
  rw [h1]
  unfold Query.filterRows
  cases hf : q.filter with
  | none => simp
  | some p =>
    simp only [Option.all_some]
    rw [List.filter_filter]
    congr 1
    funext r
    rw [Bool.and_comm]

/-! ### Index search -/

/-- What a partition has for the query. -/
def partCands (q : Query) (m : Dist V C) (sel : Addr → Bool) (p : Nat) (rows : List (Addr × C)) : List (Addr × Nat) :=
  ((rows.filter (fun r => sel r.1)).map (fun r => (r.1, m.code p r.2))).filter (fun r => q.inRange r.2)

/-- What the probed partitions of the deltas have for the query. -/
def indexCands (q : Query) (m : Dist V C) (frags : List (Frag V)) (probes : List Nat) (ds : List (Delta C)) : List (Addr × Nat) :=
  ds.flatMap (fun d => probes.flatMap (fun p => partCands q m (d.selected frags (q.allow frags)) p ((d.file.load p).getD [])))

theorem searchPart_suff (srt : Srt) (q : Query) (m : Dist V C) (sel : Addr → Bool) (p : Nat) (rows : List (Addr × C)) :
    Suff (q.k * q.refine.getD 1) (searchPart srt q m sel p rows) (partCands q m sel p rows) :=
  Suff.take (srt.sorted Prod.snd _) (srt.perm Prod.snd _)

theorem searchParts_suff (srt : Srt) (q : Query) (m : Dist V C) (sel : Addr → Bool) (x : IndexFile C) : ∀ (ps : List Nat), (∀ p ∈ ps, ∃ rows, x.load p = some rows) →
    ∃ out, ps.mapM (fun p => (x.load p).map (searchPart srt q m sel p)) = some out ∧
      Suff (q.k * q.refine.getD 1) out.flatten (ps.flatMap (fun p => partCands q m sel p ((x.load p).getD []))) := by
  intro ps
  induction ps with
  | nil => intro _; exact ⟨[], rfl, Suff.refl _ _⟩
  | cons p ps ih =>
    intro h
    obtain ⟨rows, hr⟩ := h p List.mem_cons_self
    obtain ⟨out, h1, h2⟩ := ih (fun p' hp' => h p' (List.mem_cons_of_mem _ hp'))
    refine ⟨searchPart srt q m sel p rows :: out, ?_, ?_⟩
    · rw [List.mapM_cons, hr, h1]
      rfl
    · rw [List.flatten_cons, List.flatMap_cons, hr]
      exact (searchPart_suff srt q m sel p rows).append h2

theorem searchDeltas_suff (srt : Srt) (q : Query) (m : Dist V C) (c : Cfg V C) (frags : List (Frag V)) : ∀ (ds : List (Delta C)),
    (∀ d ∈ ds, ∀ p ∈ findPartitions srt q m c.nparts, ∃ rows, d.file.load p = some rows) →
    ∃ out, ds.mapM (searchDelta srt q m c frags (q.allow frags)) = some out ∧
      Suff (q.k * q.refine.getD 1) out.flatten (indexCands q m frags (findPartitions srt q m c.nparts) ds) := by
  intro ds
  induction ds with
  | nil => intro _; exact ⟨[], rfl, Suff.refl _ _⟩
  | cons d ds ih =>
    intro h
    obtain ⟨out, h1, h2⟩ := ih (fun d' hd' => h d' (List.mem_cons_of_mem _ hd'))
    obtain ⟨o, h3, h4⟩ := searchParts_suff srt q m (d.selected frags (q.allow frags)) d.file _ (h d List.mem_cons_self)
    refine ⟨o.flatten :: out, ?_, ?_⟩
    · rw [List.mapM_cons]
      unfold searchDelta at h1 ⊢
      rw [h3, h1]
      rfl
    · rw [List.flatten_cons]
      unfold indexCands
      rw [List.flatMap_cons]
      exact h4.append h2

theorem mem_probes {srt : Srt} {q : Query} {m : Dist V C} {n p : Nat} (h : p ∈ findPartitions srt q m n) : p < n :=
  List.mem_range.1 ((srt.perm m.centroid (List.range n)).mem_iff.1 (List.mem_of_mem_take h))

theorem probes_nodup (srt : Srt) (q : Query) (m : Dist V C) (n : Nat) : (findPartitions srt q m n).Nodup :=
  (List.take_sublist _ _).nodup (((srt.perm m.centroid (List.range n)).nodup_iff).2 List.nodup_range)

theorem probes_all {srt : Srt} {q : Query} {m : Dist V C} {n : Nat} (h : n ≤ q.nprobes) {p : Nat} (hp : p < n) : p ∈ findPartitions srt q m n := by
  unfold findPartitions
  rw [List.take_of_length_le]
  · exact (srt.perm m.centroid (List.range n)).mem_iff.2 (List.mem_range.2 hp)
  · rw [(srt.perm m.centroid (List.range n)).length_eq, List.length_range]
    exact h

theorem ann_spec (srt : Srt) (q : Query) (m : Dist V C) {raw : Bool} {c : Cfg V C} {frags : List (Frag V)} {ds : List (Delta C)} (hd : Deltas raw c frags ds) :
    ∃ l u : List (Addr × Nat), ann srt q m c frags ds = some (l.take (q.k * q.refine.getD 1)) ∧ l.Pairwise (fun a b => a.2 ≤ b.2) ∧ l.Perm u ∧
      Suff (q.k * q.refine.getD 1) u (indexCands q m frags (findPartitions srt q m c.nparts) ds) := by
  obtain ⟨out, h1, h2⟩ := searchDeltas_suff srt q m c frags ds (by
    intro d hm p hp
    obtain ⟨parts, hok⟩ := hd.1 d hm
    rw [hok.file.2 p]
    exact ⟨_, List.getElem?_eq_getElem (by rw [hok.nparts]; exact mem_probes hp)⟩)
  refine ⟨srt.sort Prod.snd out.flatten, out.flatten, ?_, srt.sorted _ _, srt.perm _ _, h2⟩
  unfold ann
  rw [h1]
  rfl

/-- A covered row that is not blocked is there. -/
theorem not_blocked {frags : List (Frag V)} (hi : Ids frags) {d : Delta C} {a : Addr} (hb : a.1 ∈ d.bitmap)
    (hoff : ∀ f ∈ frags, f.id = a.1 → a.2 < f.rows.length) : d.blocked frags a = false ↔ ∃ w, lookup frags a = some w := by
  unfold Delta.blocked
  rw [show d.bitmap.contains a.1 = true by simpa using hb, Bool.true_and]
  constructor
  · intro h
    cases hf : frags.find? (fun f => f.id == a.1) with
    | none => rw [hf] at h; cases h
    | some f =>
      rw [hf] at h
      simp only at h
      have hid : f.id = a.1 := by simpa using List.find?_some hf
      have hmem := List.mem_of_find?_eq_some hf
      have hlt := hoff f hmem hid
      exact ⟨_, (lookup_iff hi).2 ⟨f, hmem, mem_scan.2 ⟨hid.symm, by simpa using h, List.getElem?_eq_getElem hlt⟩⟩⟩
  · rintro ⟨w, h⟩
    obtain ⟨f, hf, hs⟩ := (lookup_iff hi).1 h
    obtain ⟨e1, e2, _⟩ := mem_scan.1 hs
    rw [e1, find_frag hi hf]
    simpa using e2

theorem allow_iff {q : Query} {frags : List (Frag V)} (hi : Ids frags) {a : Addr} {w : Option V} (hl : lookup frags a = some w) :
    (q.allow frags).all (fun ids => ids.contains a) = true ↔ (q.filter.all (fun p => p a) = true ∧ (q.filter.isSome = true → q.fragments.all (fun ids => ids.contains a.1) = true)) := by
  unfold Query.allow
  cases hf : q.filter with
  | none => simp
  | some p =>
    simp only [Option.map_some, Option.all_some, Option.isSome_some, true_imp_iff]
    rw [filterScan_eq, hf]
    obtain ⟨f, hm, hs⟩ := (lookup_iff hi).1 hl
    constructor
    · intro h
      obtain ⟨r, hr, rfl⟩ := List.mem_map.1 (List.contains_iff_mem.1 h)
      have := (List.mem_filter.1 hr).2
      rw [Bool.and_eq_true] at this
      exact ⟨this.2, this.1⟩
    · rintro ⟨h1, h2⟩
      refine List.contains_iff_mem.2 ?_
      refine List.mem_map.2 ⟨(a, w), List.mem_filter.2 ⟨List.mem_flatMap.2 ⟨f, hm, hs⟩, ?_⟩, rfl⟩
      rw [Bool.and_eq_true]
      exact ⟨h2, h1⟩

/-- The query lets the live row through. -/
def Query.passes (q : Query) (a : Addr) : Prop :=
  q.filter.all (fun p => p a) = true ∧ (q.filter.isSome = true → q.fragments.all (fun ids => ids.contains a.1) = true)

theorem mem_partCands {q : Query} {m : Dist V C} {sel : Addr → Bool} {p : Nat} {rows : List (Addr × C)} {x : Addr × Nat} :
    x ∈ partCands q m sel p rows ↔ ∃ r ∈ rows, r.1 = x.1 ∧ sel x.1 = true ∧ x.2 = m.code p r.2 ∧ q.inRange x.2 = true := by
  unfold partCands
  rw [List.mem_filter, List.mem_map]
  constructor
  · rintro ⟨⟨r, hr, rfl⟩, h2⟩
    obtain ⟨h3, h4⟩ := List.mem_filter.1 hr
    exact ⟨r, h3, rfl, h4, rfl, h2⟩
  · rintro ⟨r, hr, h1, h2, h3, h4⟩
    refine ⟨⟨r, List.mem_filter.2 ⟨hr, by rw [h1]; exact h2⟩, ?_⟩, h4⟩
    rw [h1, ← h3]

/-- Where the candidates of an index come from. -/
theorem mem_indexCands {q : Query} {m : Dist V C} {raw : Bool} {c : Cfg V C} {frags : List (Frag V)} (hi : Ids frags) {ds : List (Delta C)}
    (hd : Deltas raw c frags ds) {probes : List Nat} {x : Addr × Nat} (hx : x ∈ indexCands q m frags probes ds) :
    ∃ d ∈ ds, x.1.1 ∈ d.bitmap ∧ ∃ v, lookup frags x.1 = some (some v) ∧ c.pid v ∈ probes ∧ q.passes x.1 ∧ q.inRange x.2 = true ∧
      (x.2 = m.code (c.pid v) (c.quant (c.fresh v)) ∨ (raw = true ∧ x.2 = m.code (c.pid v) (c.quant v))) := by
  obtain ⟨d, hdm, hx⟩ := List.mem_flatMap.1 hx
  obtain ⟨p, hp, hx⟩ := List.mem_flatMap.1 hx
  obtain ⟨r, hr, e1, e2, e3, e4⟩ := mem_partCands.1 hx
  obtain ⟨parts, hok⟩ := hd.1 d hdm
  rw [hok.file.2 p] at hr
  cases hpp : parts[p]? with
  | none => rw [hpp] at hr; cases hr
  | some rows =>
    rw [hpp] at hr
    simp only [Option.getD_some] at hr
    have hb := hok.bitmap p rows hpp r hr
    unfold Delta.selected at e2
    rw [Bool.and_eq_true, Bool.not_eq_true'] at e2
    have hoff := hok.offset p rows hpp r hr
    rw [e1] at hb hoff
    obtain ⟨w, hl⟩ := (not_blocked hi hb hoff).1 e2.2
    obtain ⟨v, rfl, hpid, hcode⟩ := hok.sound p rows hpp r hr w (by rw [e1]; exact hl)
    refine ⟨d, hdm, hb, v, hl, by rw [hpid]; exact hp, (allow_iff hi hl).1 e2.1, e4, ?_⟩
    rw [hpid, e3]
    rcases hcode with h | ⟨h, h'⟩
    · exact Or.inl (by rw [h])
    · exact Or.inr ⟨h, by rw [h']⟩

theorem indexCands_has {q : Query} {m : Dist V C} {raw : Bool} {c : Cfg V C} {frags : List (Frag V)} (hi : Ids frags) {ds : List (Delta C)}
    (hd : Deltas raw c frags ds) {probes : List Nat} {a : Addr} {v : V} (hl : lookup frags a = some (some v)) (hc : covered ds a.1 = true)
    (hp : c.pid v ∈ probes) (hpass : q.passes a)
    (hex : ∀ v, m.code (c.pid v) (c.quant (c.fresh v)) = m.dist v ∧ (raw = true → m.code (c.pid v) (c.quant v) = m.dist v)) (hr : q.inRange (m.dist v) = true) :
    (a, m.dist v) ∈ indexCands q m frags probes ds := by
  unfold covered at hc
  simp only [List.contains_eq_mem, decide_eq_true_eq] at hc
  obtain ⟨d, hdm, hb⟩ := List.mem_flatMap.1 hc
  obtain ⟨parts, hok⟩ := hd.1 d hdm
  obtain ⟨rows, e1, e2⟩ := hok.complete a v hl hb
  obtain ⟨r, hrm, he⟩ := List.mem_map.1 e2
  obtain ⟨v', hv', _, hcode⟩ := hok.sound _ rows e1 r hrm _ (by rw [he]; exact hl)
  cases hv'
  refine List.mem_flatMap.2 ⟨d, hdm, List.mem_flatMap.2 ⟨_, hp, ?_⟩⟩
  rw [hok.file.2, e1]
  refine mem_partCands.2 ⟨r, hrm, he, ?_, ?_, hr⟩
  · unfold Delta.selected
    rw [Bool.and_eq_true, Bool.not_eq_true']
    refine ⟨(allow_iff hi hl).2 hpass, (not_blocked hi hb ?_).2 ⟨_, hl⟩⟩
    rw [← he]
    exact hok.offset _ rows e1 r hrm
  · rcases hcode with h | ⟨h, h'⟩
    · rw [h]; exact (hex v).1.symm
    · rw [h']; exact ((hex v).2 h).symm

theorem map_fst_flatMap {α β γ : Type} (l : List α) (f : α → List (β × γ)) : (l.flatMap f).map Prod.fst = (l.map (fun x => (f x).map Prod.fst)).flatten := by
  rw [List.map_flatMap, List.flatMap_def]

theorem indexCands_nodup {q : Query} {m : Dist V C} {raw : Bool} {c : Cfg V C} {frags : List (Frag V)} (hi : Ids frags) {ds : List (Delta C)}
    (hd : Deltas raw c frags ds) {probes : List Nat} (hp : probes.Nodup) : ((indexCands q m frags probes ds).map Prod.fst).Nodup := by
  have one : ∀ d ∈ ds, ∀ p x, x ∈ partCands q m (d.selected frags (q.allow frags)) p ((d.file.load p).getD []) →
      x.1.1 ∈ d.bitmap ∧ ∃ v, lookup frags x.1 = some (some v) ∧ c.pid v = p := by
    intro d hdm p x hx
    have hd1 : Deltas raw c frags [d] := ⟨by intro e he; cases List.mem_singleton.1 he; exact hd.1 d hdm, List.pairwise_singleton _ _⟩
    have hx' : x ∈ indexCands q m frags [p] [d] := List.mem_flatMap.2 ⟨d, List.mem_singleton.2 rfl, List.mem_flatMap.2 ⟨p, List.mem_singleton.2 rfl, hx⟩⟩
    obtain ⟨d', hd', hb, v, hl, hpv, _⟩ := mem_indexCands hi hd1 hx'
    cases List.mem_singleton.1 hd'
    exact ⟨hb, v, hl, List.mem_singleton.1 hpv⟩
  unfold indexCands
  rw [map_fst_flatMap]
  apply nodup_flatten
  · intro l hl
    obtain ⟨d, hdm, rfl⟩ := List.mem_map.1 hl
    rw [map_fst_flatMap]
    apply nodup_flatten
    · intro l hl
      obtain ⟨p, hpm, rfl⟩ := List.mem_map.1 hl
      obtain ⟨parts, hok⟩ := hd.1 d hdm
      have hn : (((d.file.load p).getD []).map Prod.fst).Nodup := by
        rw [hok.file.2 p]
        cases hpp : parts[p]? with
        | none => exact List.nodup_nil
        | some rows => exact hok.nodup p rows hpp
      unfold partCands
      refine List.Sublist.nodup (List.filter_sublist.map _) ?_
      rw [List.map_map]
      exact (List.filter_sublist.map Prod.fst).nodup hn
    · rw [List.pairwise_map]
      refine List.Pairwise.imp ?_ (List.nodup_iff_pairwise_ne.1 hp)
      intro p p' hne a ha ha'
      obtain ⟨x, hx, rfl⟩ := List.mem_map.1 ha
      obtain ⟨x', hx', he⟩ := List.mem_map.1 ha'
      obtain ⟨_, v, h1, h2⟩ := one d hdm p x hx
      obtain ⟨_, v', h1', h2'⟩ := one d hdm p' x' hx'
      rw [he, h1] at h1'
      cases h1'
      exact hne (h2.symm.trans h2')
  · rw [List.pairwise_map]
    have hmem : ds.Pairwise (fun d e => d ∈ ds ∧ e ∈ ds) := by
      rw [List.pairwise_iff_getElem]
      intro i j hi' hj' _
      exact ⟨List.getElem_mem hi', List.getElem_mem hj'⟩
    refine List.Pairwise.imp ?_ (hd.2.and hmem)
    rintro d e ⟨hdis, hdm, hem⟩ a ha ha'
    obtain ⟨x, hx, rfl⟩ := List.mem_map.1 ha
    obtain ⟨x', hx', he⟩ := List.mem_map.1 ha'
    obtain ⟨p, _, hx⟩ := List.mem_flatMap.1 hx
    obtain ⟨p', _, hx'⟩ := List.mem_flatMap.1 hx'
    have h1 := (one d hdm p x hx).1
    have h2 := (one e hem p' x' hx').1
    rw [he] at h2
    exact hdis _ h1 h2

/-- Taking the vectors of found rows gives them their distances. -/
theorem candsOf_takeVec {q : Query} {m : Dist V C} {frags : List (Frag V)} : ∀ {l : List (Addr × Nat)},
    (∀ x ∈ l, ∃ v, lookup frags x.1 = some (some v) ∧ x.2 = m.dist v ∧ q.inRange x.2 = true) → candsOf q m (takeVec frags (l.map Prod.fst)) = l := by
  intro l
  induction l with
  | nil => intro _; rfl
  | cons x xs ih =>
    intro h
    obtain ⟨v, h1, h2, h3⟩ := h x List.mem_cons_self
    have ih := ih (fun y hy => h y (List.mem_cons_of_mem _ hy))
    unfold candsOf takeVec at ih ⊢
    rw [List.map_cons, List.filterMap_cons, h1]
    simp only [Option.map_some]
    rw [List.filterMap_cons]
    simp only [Option.bind_some]
    rw [← h2, if_pos h3]
    simp only
    rw [ih]

theorem mem_takeVec {frags : List (Frag V)} {ids : List Addr} {a : Addr} {w : Option V} (h : (a, w) ∈ takeVec frags ids) : a ∈ ids ∧ lookup frags a = some w := by
  unfold takeVec at h
  obtain ⟨b, hb, he⟩ := List.mem_filterMap.1 h
  cases hl : lookup frags b with
  | none => rw [hl] at he; cases he
  | some w' =>
    rw [hl] at he
    cases he
    exact ⟨hb, hl⟩

theorem takeVec_nodup {frags : List (Frag V)} {ids : List Addr} (h : ids.Nodup) : ((takeVec frags ids).map Prod.fst).Nodup := by
  refine List.Sublist.nodup ?_ h
  clear h
  unfold takeVec
  induction ids with
  | nil => exact List.Sublist.slnil
  | cons a as ih =>
    rw [List.filterMap_cons]
    cases hl : lookup frags a with
    | none => exact List.Sublist.cons _ ih
    | some w => exact List.Sublist.cons_cons _ ih

end Verif.Vec
