import Verif.Vec.LemmasInv
import Verif.Vec.Spec
namespace Verif.Vec
variable {V C : Type}

/-- The invariant of histories. -/
structure Inv (raw : Bool) (s : State V C) : Prop where
  ids : Ids s.frags
  below : ∀ f ∈ s.frags, f.id < s.next
  index : ∀ c ds, s.index = some (c, ds) → c.Valid ∧ Deltas raw c s.frags ds ∧ ∀ d ∈ ds, ∀ i ∈ d.bitmap, i < s.next

theorem Inv.init : Inv raw (State.init V C) :=
  ⟨List.nodup_nil, (by intro f hf; cases hf), (by intro c ds h; cases h)⟩

/-- A delta stays right if the covered rows do not become other rows. -/
theorem DeltaOk.frags {raw : Bool} {c : Cfg V C} {frags frags' : List (Frag V)} {d : Delta C} {parts : List (List (Addr × C))}
    (h : DeltaOk raw c frags d parts) (h1 : ∀ a w, a.1 ∈ d.bitmap → lookup frags' a = some w → lookup frags a = some w)
    (h2 : ∀ f' ∈ frags', f'.id ∈ d.bitmap → ∃ f ∈ frags, f.id = f'.id ∧ f.rows.length ≤ f'.rows.length) : DeltaOk raw c frags' d parts := by
  refine ⟨h.file, h.nparts, h.nodup, h.bitmap, ?_, ?_, ?_, h.partCol⟩
  · intro p rows hp r hr f' hf' e
    have hb := h.bitmap p rows hp r hr
    obtain ⟨f, hf, e1, e2⟩ := h2 f' hf' (by rw [e]; exact hb)
    have := h.offset p rows hp r hr f hf (by rw [e1, e])
    omega
  · intro p rows hp r hr w hl
    exact h.sound p rows hp r hr w (h1 _ _ (h.bitmap p rows hp r hr) hl)
  · intro a v hl hb
    exact h.complete a v (h1 _ _ hb hl) hb

theorem Inv.append {raw : Bool} {s : State V C} (h : Inv raw s) (rows : List (Option V)) : Inv raw (s.append rows) := by
  have hids : Ids (s.frags ++ [⟨s.next, rows, []⟩]) := by
    rw [Ids, List.map_append, List.nodup_append]
    refine ⟨h.ids, by simp, ?_⟩
    intro a ha b hb e
    obtain ⟨f, hf, rfl⟩ := List.mem_map.1 ha
    have := h.below f hf
    simp at hb
    omega
  refine ⟨hids, ?_, ?_⟩
  · intro f hf
    show f.id < s.next + 1
    rcases List.mem_append.1 hf with hf | hf
    · have := h.below f hf; omega
    · cases List.mem_singleton.1 hf
      simp
  · intro c ds hix
    obtain ⟨h1, h2, h3⟩ := h.index c ds hix
    refine ⟨h1, ⟨?_, h2.2⟩, ?_⟩
    · intro d hd
      obtain ⟨parts, hp⟩ := h2.1 d hd
      refine ⟨parts, hp.frags ?_ ?_⟩
      · intro a w hb hl
        obtain ⟨f, hf, hs⟩ := (lookup_iff hids).1 hl
        rcases List.mem_append.1 hf with hf | hf
        · exact (lookup_iff h.ids).2 ⟨f, hf, hs⟩
        · cases List.mem_singleton.1 hf
          have := (mem_scan.1 hs).1
          have := h3 d hd a.1 hb
          simp only at *
          omega
      · intro f hf hb
        rcases List.mem_append.1 hf with hf | hf
        · exact ⟨f, hf, rfl, Nat.le_refl _⟩
        · cases List.mem_singleton.1 hf
          have := h3 d hd _ hb
          simp only at this
          omega
    · intro d hd i hi
      have := h3 d hd i hi
      show i < s.next + 1
      omega

theorem delete_ids {frags : List (Frag V)} (h : Ids frags) (p : Addr → Bool) : Ids ((frags.map (Frag.delete p)).filter (fun f => !f.gone)) := by
  have h1 : ((frags.map (Frag.delete p)).map Frag.id).Nodup := by
    rw [List.map_map]
    exact h
  exact ((List.filter_sublist (l := frags.map (Frag.delete p))).map Frag.id).nodup h1

theorem lookup_delete {frags : List (Frag V)} (h : Ids frags) (p : Addr → Bool) {a : Addr} {w : Option V} :
    lookup ((frags.map (Frag.delete p)).filter (fun f => !f.gone)) a = some w ↔ lookup frags a = some w ∧ p a = false := by
  rw [lookup_iff h, lookup_iff (delete_ids h p)]
  constructor
  · rintro ⟨f', hf', hs⟩
    obtain ⟨f, hf, rfl⟩ := List.mem_map.1 (List.mem_filter.1 hf').1
    obtain ⟨e1, e2, e3⟩ := mem_scan.1 hs
    have e4 : a.2 ∉ f.dels := fun hm => e2 (List.mem_append_left _ hm)
    refine ⟨⟨f, hf, mem_scan.2 ⟨e1, e4, e3⟩⟩, ?_⟩
    cases hp : p a with
    | false => rfl
    | true =>
      refine absurd (List.mem_append_right _ (List.mem_filter.2 ⟨List.mem_range.2 (List.getElem?_eq_some_iff.1 e3).1, ?_⟩)) e2
      have : (f.id, a.2) = a := by rw [show f.id = a.1 from e1.symm]
      simp [this, hp, e4]
  · rintro ⟨⟨f, hf, hs⟩, hp⟩
    obtain ⟨e1, e2, e3⟩ := mem_scan.1 hs
    have hnd : a.2 ∉ (f.delete p).dels := by
      intro hm
      rcases List.mem_append.1 hm with hm | hm
      · exact e2 hm
      · have := (List.mem_filter.1 hm).2
        have e : (f.id, a.2) = a := by rw [show f.id = a.1 from e1.symm]
        simp [e, hp] at this
    refine ⟨f.delete p, List.mem_filter.2 ⟨List.mem_map_of_mem hf, ?_⟩, mem_scan.2 ⟨e1, hnd, e3⟩⟩
    cases hg : (f.delete p).gone with
    | false => rfl
    | true =>
      unfold Frag.gone at hg
      rw [List.all_eq_true] at hg
      have := hg a.2 (List.mem_range.2 (List.getElem?_eq_some_iff.1 e3).1)
      exact absurd (by simpa using this) hnd

theorem Inv.delete {raw : Bool} {s : State V C} (h : Inv raw s) (p : Addr → Bool) : Inv raw (s.delete p) := by
  refine ⟨delete_ids h.ids p, ?_, ?_⟩
  · intro f' hf'
    obtain ⟨f, hf, rfl⟩ := List.mem_map.1 (List.mem_filter.1 hf').1
    exact h.below f hf
  · intro c ds hix
    obtain ⟨h1, h2, h3⟩ := h.index c ds hix
    refine ⟨h1, ⟨?_, h2.2⟩, h3⟩
    intro d hd
    obtain ⟨parts, hp⟩ := h2.1 d hd
    refine ⟨parts, hp.frags (fun a w _ hl => ((lookup_delete h.ids p).1 hl).1) ?_⟩
    intro f' hf' _
    obtain ⟨f, hf, rfl⟩ := List.mem_map.1 (List.mem_filter.1 hf').1
    exact ⟨f, hf, rfl, Nat.le_refl _⟩

theorem Inv.create {raw : Bool} {s s' : State V C} (h : Inv raw s) {c : Cfg V C} (hc : c.Valid) (hs : s.create c = some s') : Inv raw s' := by
  unfold State.create at hs
  cases hb : c.build s.frags [] none with
  | none => rw [hb] at hs; cases hs
  | some x =>
    rw [hb] at hs
    cases hs
    refine ⟨h.ids, h.below, ?_⟩
    intro c' ds hix
    cases hix
    have hd : Deltas raw c s.frags [] := ⟨(by intro d hd; cases hd), List.Pairwise.nil⟩
    have := build_ok (raw' := raw) hc h.ids (List.Sublist.refl _) hd (by intro f _ d hd; cases hd) (Or.inl rfl) (data := none) rfl hb
    refine ⟨hc, ⟨?_, List.pairwise_singleton _ _⟩, ?_⟩
    · intro d hd
      cases List.mem_singleton.1 hd
      simpa using this
    · intro d hd i hi
      cases List.mem_singleton.1 hd
      obtain ⟨f, hf, rfl⟩ := List.mem_map.1 hi
      exact h.below f hf

theorem not_mem_unindexed {frags : List (Frag V)} {ds : List (Delta C)} {f : Frag V} :
    f ∈ unindexed frags ds ↔ f ∈ frags ∧ ∀ d ∈ ds, f.id ∉ d.bitmap := by
  unfold unindexed
  rw [List.mem_filter]
  constructor
  · rintro ⟨h1, h2⟩
    refine ⟨h1, ?_⟩
    intro d hd hb
    simp only [Bool.not_eq_true', List.contains_eq_mem, decide_eq_false_iff_not] at h2
    exact h2 (List.mem_flatMap.2 ⟨d, hd, hb⟩)
  · rintro ⟨h1, h2⟩
    refine ⟨h1, ?_⟩
    simp only [Bool.not_eq_true', List.contains_eq_mem, decide_eq_false_iff_not]
    intro hm
    obtain ⟨d, hd, hb⟩ := List.mem_flatMap.1 hm
    exact h2 d hd hb

theorem Inv.optimize {raw : Bool} {s s' : State V C} (h : Inv raw s) {n : Nat} (hraw : raw = true ∨ n = 0)
    (hun : ∀ c ds, s.index = some (c, ds) → unindexed s.frags ds ≠ []) (hs : s.optimize n = some s') : Inv raw s' := by
  unfold State.optimize at hs
  cases hix : s.index with
  | none => rw [hix] at hs; cases hs; exact h
  | some cd =>
    obtain ⟨c, ds⟩ := cd
    rw [hix] at hs
    simp only at hs
    have hne := hun c ds hix
    rw [if_neg (by rw [List.isEmpty_iff]; exact hne)] at hs
    obtain ⟨hc, hd, hbel⟩ := h.index c ds hix
    cases hb : c.build s.frags ((ds.drop (ds.length - n)).map Delta.file) (some (vectorsOf (unindexed s.frags ds))) with
    | none => rw [hb] at hs; cases hs
    | some x =>
      rw [hb] at hs
      cases hs
      refine ⟨h.ids, h.below, ?_⟩
      intro c' ds' hix'
      cases hix'
      have hsplit : (ds.take (ds.length - n) ++ ds.drop (ds.length - n)).Pairwise (fun d e => ∀ i ∈ d.bitmap, i ∉ e.bitmap) := by
        rw [List.take_append_drop]; exact hd.2
      obtain ⟨hp1, hp2, hp3⟩ := List.pairwise_append.1 hsplit
      have hdrop : Deltas raw c s.frags (ds.drop (ds.length - n)) := ⟨fun d hm => hd.1 d (List.mem_of_mem_drop hm), hp2⟩
      have hnew := build_ok (raw' := raw) hc h.ids (un := unindexed s.frags ds) List.filter_sublist hdrop
        (fun f hf d hm => (not_mem_unindexed.1 hf).2 d (List.mem_of_mem_drop hm))
        (by
          rcases hraw with e | e
          · exact Or.inr e
          · left; subst e; simp)
        (data := some (vectorsOf (unindexed s.frags ds))) rfl hb
      refine ⟨hc, ⟨?_, ?_⟩, ?_⟩
      · intro d hm
        rcases List.mem_append.1 hm with hm | hm
        · exact hd.1 d (List.mem_of_mem_take hm)
        · cases List.mem_singleton.1 hm
          exact hnew
      · rw [List.pairwise_append]
        refine ⟨hp1, List.pairwise_singleton _ _, ?_⟩
        intro d hm e he i hi hi'
        cases List.mem_singleton.1 he
        rcases List.mem_append.1 hi' with hi' | hi'
        · obtain ⟨f, hf, rfl⟩ := List.mem_map.1 hi'
          exact (not_mem_unindexed.1 hf).2 d (List.mem_of_mem_take hm) hi
        · obtain ⟨e, he, hi'⟩ := List.mem_flatMap.1 hi'
          exact hp3 d hm e he i hi hi'
      · intro d hm i hi
        rcases List.mem_append.1 hm with hm | hm
        · exact hbel d (List.mem_of_mem_take hm) i hi
        · cases List.mem_singleton.1 hm
          rcases List.mem_append.1 hi with hi | hi
          · obtain ⟨f, hf, rfl⟩ := List.mem_map.1 hi
            exact h.below f (not_mem_unindexed.1 hf).1
          · obtain ⟨e, he, hi⟩ := List.mem_flatMap.1 hi
            exact hbel e (List.mem_of_mem_drop he) i hi

/-! ### Compaction -/

section compact
variable {frags : List (Frag V)} {next : Nat} (hi : Ids frags) (hbel : ∀ f ∈ frags, f.id < next) (ids : List Nat)

/-- The compacted fragments. -/
abbrev grp (frags : List (Frag V)) (ids : List Nat) : List (Frag V) := frags.filter (fun f => ids.contains f.id)
/-- The fragments after the compaction. -/
abbrev compacted (frags : List (Frag V)) (next : Nat) (ids : List Nat) : List (Frag V) :=
  frags.filter (fun f => !ids.contains f.id) ++ [⟨next, ((grp frags ids).flatMap Frag.scan).map Prod.snd, []⟩]

include hi in
theorem grp_ids : Ids (grp frags ids) := ids_sub hi List.filter_sublist

include hi hbel in
theorem compacted_ids : Ids (compacted frags next ids) := by
  rw [Ids, List.map_append, List.nodup_append]
  refine ⟨(List.filter_sublist.map _).nodup hi, by simp, ?_⟩
  intro a ha b hb e
  obtain ⟨f, hf, rfl⟩ := List.mem_map.1 ha
  have := hbel f (List.mem_filter.1 hf).1
  simp at hb
  omega

include hi hbel in
/-- The rows of other fragments stay. -/
theorem lookup_compacted_old {a : Addr} (ha : a.1 ≠ next) {w : Option V} :
    lookup (compacted frags next ids) a = some w ↔ lookup frags a = some w ∧ ids.contains a.1 = false := by
  rw [lookup_iff hi, lookup_iff (compacted_ids hi hbel ids)]
  constructor
  · rintro ⟨f, hf, hs⟩
    rcases List.mem_append.1 hf with hf | hf
    · obtain ⟨h1, h2⟩ := List.mem_filter.1 hf
      refine ⟨⟨f, h1, hs⟩, ?_⟩
      rw [(mem_scan.1 hs).1]
      simpa using h2
    · cases List.mem_singleton.1 hf
      exact absurd (mem_scan.1 hs).1 ha
  · rintro ⟨⟨f, hf, hs⟩, h2⟩
    refine ⟨f, List.mem_append_left _ (List.mem_filter.2 ⟨hf, ?_⟩), hs⟩
    rw [(mem_scan.1 hs).1] at h2
    simpa using h2

include hi hbel in
/-- The rows of the new fragment. -/
theorem lookup_compacted_new (i : Nat) : lookup (compacted frags next ids) (next, i) = (((grp frags ids).flatMap Frag.scan)[i]?).map Prod.snd := by
  apply Option.ext
  intro w
  rw [lookup_iff (compacted_ids hi hbel ids)]
  constructor
  · rintro ⟨f, hf, hs⟩
    rcases List.mem_append.1 hf with hf | hf
    · have := hbel f (List.mem_filter.1 hf).1
      have := (mem_scan.1 hs).1
      simp only at this
      omega
    · cases List.mem_singleton.1 hf
      have := (mem_scan.1 hs).2.2
      simpa using this
  · intro h
    refine ⟨_, List.mem_append_right _ (List.mem_singleton.2 rfl), mem_scan.2 ⟨rfl, List.not_mem_nil, ?_⟩⟩
    simpa using h

theorem mem_grp_ids {i : Nat} : i ∈ (grp frags ids).map Frag.id ↔ i ∈ frags.map Frag.id ∧ ids.contains i = true := by
  constructor
  · intro h
    obtain ⟨f, hf, rfl⟩ := List.mem_map.1 h
    obtain ⟨h1, h2⟩ := List.mem_filter.1 hf
    exact ⟨List.mem_map_of_mem h1, h2⟩
  · rintro ⟨h, h2⟩
    obtain ⟨f, hf, rfl⟩ := List.mem_map.1 h
    exact List.mem_map_of_mem (List.mem_filter.2 ⟨hf, h2⟩)

/-- Rows of fragments that are not compacted are not in the map. -/
theorem compactMap_other {group : List (Frag V)} {a : Addr} (h : a.1 ∉ group.map Frag.id) : compactMap group next a = none := by
  unfold compactMap
  have : group.find? (fun f => f.id == a.1) = none := by
    rw [List.find?_eq_none]
    intro f hf he
    exact h (List.mem_map.2 ⟨f, hf, by simpa using he⟩)
  rw [this]

/-- Rows of compacted fragments are in the map. -/
theorem compactMap_group {group : List (Frag V)} (hg : Ids group) {f : Frag V} (hf : f ∈ group) {a : Addr} (ha : a.1 = f.id) (hl : a.2 < f.rows.length) :
    compactMap group next a = some (((group.flatMap Frag.scan).findIdx? (fun r => r.1 == a)).map (fun i => (next, i))) := by
  unfold compactMap
  rw [ha, find_frag hg hf]
  simp only
  rw [if_neg (by omega)]

theorem findIdx_some {l : List (Addr × Option V)} {a : Addr} {i : Nat} (h : l.findIdx? (fun r => r.1 == a) = some i) : ∃ w, l[i]? = some (a, w) := by
  obtain ⟨hi, h1, _⟩ := List.findIdx?_eq_some_iff_getElem.1 h
  refine ⟨l[i].2, ?_⟩
  rw [List.getElem?_eq_getElem hi, ← (show l[i].1 = a by simpa using h1)]

theorem nodup_getElem_inj {α : Type} {l : List α} (h : l.Nodup) {i j : Nat} {a : α} (h1 : l[i]? = some a) (h2 : l[j]? = some a) : i = j := by
  obtain ⟨hi, e1⟩ := List.getElem?_eq_some_iff.1 h1
  obtain ⟨hj, e2⟩ := List.getElem?_eq_some_iff.1 h2
  rcases Nat.lt_trichotomy i j with hl | hl | hl
  · exact absurd (e1.trans e2.symm) (List.nodup_iff_pairwise_ne.1 h |> fun h => List.pairwise_iff_getElem.1 h i j hi hj hl)
  · exact hl
  · exact absurd (e2.trans e1.symm) (List.nodup_iff_pairwise_ne.1 h |> fun h => List.pairwise_iff_getElem.1 h j i hj hi hl)

theorem findIdx_of {l : List (Addr × Option V)} (hn : (l.map Prod.fst).Nodup) {a : Addr} {w : Option V} {i : Nat} (h : l[i]? = some (a, w)) :
    l.findIdx? (fun r => r.1 == a) = some i := by
  cases hf : l.findIdx? (fun r => r.1 == a) with
  | none =>
    rw [List.findIdx?_eq_none_iff] at hf
    have := hf _ (List.mem_of_getElem? h)
    simp at this
  | some j =>
    obtain ⟨w', hj⟩ := findIdx_some hf
    have h1 : (l.map Prod.fst)[i]? = some a := by rw [List.getElem?_map, h]; rfl
    have h2 : (l.map Prod.fst)[j]? = some a := by rw [List.getElem?_map, hj]; rfl
    rw [nodup_getElem_inj hn h2 h1]

/-- What a partition has after remapping. -/
theorem mem_remapRows {mapping : Addr → Option (Option Addr)} {rows : List (Addr × C)} {r' : Addr × C} :
    r' ∈ remapRows mapping rows ↔ ∃ r ∈ rows, r'.2 = r.2 ∧ ((mapping r.1 = some (some r'.1)) ∨ (mapping r.1 = none ∧ r'.1 = r.1)) := by
  unfold remapRows
  rw [List.mem_filterMap]
  constructor
  · rintro ⟨r, hr, h⟩
    refine ⟨r, hr, ?_⟩
    split at h
    · rename_i a ha
      cases h
      exact ⟨rfl, Or.inl ha⟩
    · cases h
    · rename_i ha
      cases h
      exact ⟨rfl, Or.inr ⟨ha, rfl⟩⟩
  · rintro ⟨r, hr, h1, h2⟩
    refine ⟨r, hr, ?_⟩
    obtain ⟨a', c'⟩ := r'
    simp only at h1 h2
    rcases h2 with h2 | ⟨h2, h3⟩
    · rw [h2, h1]
    · rw [h2, h1, h3]

theorem remapRows_nodup {mapping : Addr → Option (Option Addr)} {rows : List (Addr × C)} (hn : (rows.map Prod.fst).Nodup)
    (hinj : ∀ r1 ∈ rows, ∀ r2 ∈ rows, ∀ a, (mapping r1.1 = some (some a) ∨ (mapping r1.1 = none ∧ a = r1.1)) →
      (mapping r2.1 = some (some a) ∨ (mapping r2.1 = none ∧ a = r2.1)) → r1.1 = r2.1) : ((remapRows mapping rows).map Prod.fst).Nodup := by
  induction rows with
  | nil => exact List.nodup_nil
  | cons r rs ih =>
    rw [List.map_cons, List.nodup_cons] at hn
    have ih := ih hn.2 (fun r1 h1 r2 h2 => hinj r1 (List.mem_cons_of_mem _ h1) r2 (List.mem_cons_of_mem _ h2))
    have hno : ∀ a, (mapping r.1 = some (some a) ∨ (mapping r.1 = none ∧ a = r.1)) → a ∉ (remapRows mapping rs).map Prod.fst := by
      intro a ha hm
      obtain ⟨r', hr', rfl⟩ := List.mem_map.1 hm
      obtain ⟨r2, hr2, _, h2⟩ := mem_remapRows.1 hr'
      have := hinj r List.mem_cons_self r2 (List.mem_cons_of_mem _ hr2) r'.1 ha h2
      exact hn.1 (by rw [this]; exact List.mem_map_of_mem hr2)
    have hcons : remapRows mapping (r :: rs) = (match mapping r.1 with
        | some (some a) => some (a, r.2)
        | some none => none
        | none => some r).toList ++ remapRows mapping rs := by
      unfold remapRows
      rw [List.filterMap_cons]
      cases hm : mapping r.1 with
      | none => rfl
      | some w => cases w <;> rfl
    rw [hcons]
    cases hm : mapping r.1 with
    | none => exact List.nodup_cons.2 ⟨hno r.1 (Or.inr ⟨hm, rfl⟩), ih⟩
    | some w =>
      cases w with
      | none => exact ih
      | some a => exact List.nodup_cons.2 ⟨hno a (Or.inl hm), ih⟩

include hi hbel in
/-- A delta that covers the compacted fragments, after remapping. -/
theorem DeltaOk.remap {raw : Bool} {c : Cfg V C} (hc : c.Valid) {d : Delta C} {parts : List (List (Addr × C))} (h : DeltaOk raw c frags d parts)
    (hb : ∀ i ∈ d.bitmap, i < next) (hall : ∀ f ∈ grp frags ids, f.id ∈ d.bitmap) {x : IndexFile C}
    (hx : d.file.remap (compactMap (grp frags ids) next) = some x) :
    ∃ parts', DeltaOk raw c (compacted frags next ids) ⟨x, d.bitmap.filter (fun i => !((grp frags ids).map Frag.id).contains i) ++ [next]⟩ parts' := by
  have hg := grp_ids hi ids
  have hsn := flatScan_nodup hg
  unfold IndexFile.remap at hx
  cases hpc : d.file.partCol with
  | true => rw [hpc] at hx; cases hx
  | false =>
    rw [hpc] at hx
    simp only [Bool.false_eq_true, if_false] at hx
    have hload : (List.range d.file.nparts).mapM d.file.load = some parts := by
      obtain ⟨out, ho⟩ := mapM_exists (f := d.file.load) (l := List.range d.file.nparts) (by
        intro p hp
        rw [h.file.2 p]
        rw [h.file.1, List.mem_range] at hp
        exact ⟨_, List.getElem?_eq_getElem hp⟩)
      have hl := (mapM_some ho).1
      rw [List.length_range, h.file.1] at hl
      rw [ho]
      congr 1
      apply List.ext_getElem? 
      intro p
      by_cases hp : p < parts.length
      · obtain ⟨b, h1, h2⟩ := (mapM_some ho).2 p p (List.getElem?_range (by rw [h.file.1]; exact hp))
        rw [h1, ← h2, h.file.2]
      · rw [List.getElem?_eq_none (by omega), List.getElem?_eq_none (by omega)]
    rw [hload] at hx
    simp only at hx
    obtain ⟨hf, first, hfirst, _, hpc'⟩ := mergePartitions_some hx
    rw [List.map_map] at hf
    have part_at : ∀ (p : Nat) rows, (parts.map (Prod.fst ∘ fun rows => (remapRows (compactMap (grp frags ids) next) rows, false)))[p]? = some rows →
        ∃ rs, parts[p]? = some rs ∧ rows = remapRows (compactMap (grp frags ids) next) rs := by
      intro p rows hp
      rw [List.getElem?_map] at hp
      cases ht : parts[p]? with
      | none => rw [ht] at hp; cases hp
      | some rb =>
        rw [ht] at hp
        cases hp
        exact ⟨rb, rfl, rfl⟩
    -- what becomes of a row
    have row : ∀ (p : Nat) rs, parts[p]? = some rs → ∀ r ∈ rs, ∀ a', (compactMap (grp frags ids) next r.1 = some (some a') ∨
        (compactMap (grp frags ids) next r.1 = none ∧ a' = r.1)) →
        (∃ i w, a' = (next, i) ∧ ((grp frags ids).flatMap Frag.scan)[i]? = some (r.1, w)) ∨ (a' = r.1 ∧ r.1.1 ∉ (grp frags ids).map Frag.id) := by
      intro p rs hp r hr a' ha
      by_cases hm : r.1.1 ∈ (grp frags ids).map Frag.id
      · left
        obtain ⟨f, hf, he⟩ := List.mem_map.1 hm
        have hlt := h.offset p rs hp r hr f (List.mem_filter.1 hf).1 he
        rw [compactMap_group hg hf he.symm hlt] at ha
        rcases ha with ha | ⟨ha, _⟩
        · cases hfi : ((grp frags ids).flatMap Frag.scan).findIdx? (fun x => x.1 == r.1) with
          | none => rw [hfi] at ha; cases ha
          | some i =>
            rw [hfi] at ha
            cases ha
            obtain ⟨w, hw⟩ := findIdx_some hfi
            exact ⟨i, w, rfl, hw⟩
        · cases ha
      · right
        rw [compactMap_other hm] at ha
        rcases ha with ha | ⟨_, ha⟩
        · cases ha
        · exact ⟨ha, hm⟩
    have hscanlk : ∀ (i : Nat) (a : Addr) (w : Option V), ((grp frags ids).flatMap Frag.scan)[i]? = some (a, w) → lookup frags a = some w := by
      intro i a w hw
      obtain ⟨f, hf, hs⟩ := List.mem_flatMap.1 (List.mem_of_getElem? hw)
      exact (lookup_iff hi).2 ⟨f, (List.mem_filter.1 hf).1, hs⟩
    refine ⟨_, hf, by rw [List.length_map, h.nparts], ?_, ?_, ?_, ?_, ?_, ?_⟩
    · intro p rows hp
      obtain ⟨rs, e1, rfl⟩ := part_at p rows hp
      apply remapRows_nodup (h.nodup p rs e1)
      intro r1 h1 r2 h2 a ha1 ha2
      have hb1 := hb _ (h.bitmap p rs e1 r1 h1)
      have hb2 := hb _ (h.bitmap p rs e1 r2 h2)
      rcases row p rs e1 r1 h1 a ha1 with ⟨i, w, ea, ei⟩ | ⟨ea, _⟩ <;> rcases row p rs e1 r2 h2 a ha2 with ⟨j, w', ea', ej⟩ | ⟨ea', _⟩
      · rw [ea] at ea'
        cases ea'
        rw [ei] at ej
        have := Option.some.inj ej
        exact (Prod.mk.inj this).1
      · rw [ea] at ea'
        rw [← ea'] at hb2
        exact absurd hb2 (Nat.lt_irrefl _)
      · rw [ea'] at ea
        rw [← ea] at hb1
        exact absurd hb1 (Nat.lt_irrefl _)
      · rw [← ea, ea']
    · intro p rows hp r' hr'
      obtain ⟨rs, e1, rfl⟩ := part_at p rows hp
      obtain ⟨r, hr, _, hm⟩ := mem_remapRows.1 hr'
      rw [List.mem_append]
      rcases row p rs e1 r hr r'.1 hm with ⟨i, w, ea, ei⟩ | ⟨ea, hn⟩
      · right; rw [ea]; simp
      · left
        rw [ea]
        exact List.mem_filter.2 ⟨h.bitmap p rs e1 r hr, by simpa using hn⟩
    · intro p rows hp r' hr' f hf' he
      obtain ⟨rs, e1, rfl⟩ := part_at p rows hp
      obtain ⟨r, hr, _, hm⟩ := mem_remapRows.1 hr'
      rcases row p rs e1 r hr r'.1 hm with ⟨i, w, ea, ei⟩ | ⟨ea, hn⟩
      · rcases List.mem_append.1 hf' with hf' | hf'
        · have := hbel f (List.mem_filter.1 hf').1
          rw [ea] at he
          simp only at he
          omega
        · cases List.mem_singleton.1 hf'
          rw [ea]
          have := (List.getElem?_eq_some_iff.1 ei).1
          simpa using this
      · rcases List.mem_append.1 hf' with hf' | hf'
        · rw [ea] at he ⊢
          exact h.offset p rs e1 r hr f (List.mem_filter.1 hf').1 he
        · cases List.mem_singleton.1 hf'
          have := hb _ (h.bitmap p rs e1 r hr)
          rw [ea] at he
          simp only at he
          omega
    · intro p rows hp r' hr' w hl
      obtain ⟨rs, e1, rfl⟩ := part_at p rows hp
      obtain ⟨r, hr, hcode, hm⟩ := mem_remapRows.1 hr'
      rw [hcode]
      rcases row p rs e1 r hr r'.1 hm with ⟨i, w', ea, ei⟩ | ⟨ea, hn⟩
      · rw [ea, lookup_compacted_new hi hbel, ei] at hl
        cases hl
        exact h.sound p rs e1 r hr w' (hscanlk i _ _ ei)
      · have hlt := hb _ (h.bitmap p rs e1 r hr)
        rw [ea, lookup_compacted_old hi hbel ids (by omega)] at hl
        exact h.sound p rs e1 r hr w hl.1
    · intro a v hl hcov
      rcases List.mem_append.1 hcov with hcov | hcov
      · obtain ⟨h1, h2⟩ := List.mem_filter.1 hcov
        have hlt := hb _ h1
        rw [lookup_compacted_old hi hbel ids (by omega)] at hl
        obtain ⟨rs, e1, e2⟩ := h.complete a v hl.1 h1
        obtain ⟨r, hr, rfl⟩ := List.mem_map.1 e2
        refine ⟨_, by rw [List.getElem?_map, e1]; rfl, ?_⟩
        refine List.mem_map.2 ⟨r, mem_remapRows.2 ⟨r, hr, rfl, Or.inr ⟨compactMap_other ?_, rfl⟩⟩, rfl⟩
        simpa using h2
      · obtain ⟨a1, i⟩ := a
        have ha1 : a1 = next := List.mem_singleton.1 hcov
        rw [ha1] at hl ⊢
        rw [lookup_compacted_new hi hbel] at hl
        cases hs : ((grp frags ids).flatMap Frag.scan)[i]? with
        | none => rw [hs] at hl; cases hl
        | some aw =>
          obtain ⟨a, w⟩ := aw
          rw [hs] at hl
          cases hl
          obtain ⟨f, hf', hsc⟩ := List.mem_flatMap.1 (List.mem_of_getElem? hs)
          obtain ⟨e3, e4, e5⟩ := mem_scan.1 hsc
          obtain ⟨rs, e1, e2⟩ := h.complete a v (hscanlk i _ _ hs) (by rw [e3]; exact hall f hf')
          obtain ⟨r, hr, rfl⟩ := List.mem_map.1 e2
          refine ⟨_, by rw [List.getElem?_map, e1]; rfl, ?_⟩
          refine List.mem_map.2 ⟨((next, i), r.2), mem_remapRows.2 ⟨r, hr, rfl, Or.inl ?_⟩, rfl⟩
          rw [compactMap_group hg hf' e3 (List.getElem?_eq_some_iff.1 e5).1, findIdx_of hsn hs]
          rfl
    · intro e
      rw [hpc'] at e
      obtain ⟨t, ht, rfl⟩ := List.mem_map.1 hfirst
      cases e

end compact

theorem Delta.compact_ok {raw : Bool} {frags : List (Frag V)} {next : Nat} (hi : Ids frags) (hbel : ∀ f ∈ frags, f.id < next) (ids : List Nat)
    {c : Cfg V C} (hc : c.Valid) {d d' : Delta C} (h : ∃ parts, DeltaOk raw c frags d parts) (hb : ∀ i ∈ d.bitmap, i < next)
    (hd : d.compact (grp frags ids) next = some d') :
    (∃ parts, DeltaOk raw c (compacted frags next ids) d' parts) ∧
      ∀ i ∈ d'.bitmap, (i ∈ d.bitmap ∧ i < next) ∨ (i = next ∧ ∃ f ∈ grp frags ids, f.id ∈ d.bitmap) := by
  obtain ⟨parts, h⟩ := h
  unfold Delta.compact at hd
  by_cases hany : (grp frags ids).any (fun f => d.bitmap.contains f.id) = true
  · rw [if_pos hany] at hd
    by_cases hall : (grp frags ids).all (fun f => d.bitmap.contains f.id) = true
    · rw [if_pos hall] at hd
      cases hr : d.file.remap (compactMap (grp frags ids) next) with
      | none => rw [hr] at hd; cases hd
      | some x =>
        rw [hr] at hd
        cases hd
        have hall' : ∀ f ∈ grp frags ids, f.id ∈ d.bitmap := by
          intro f hf
          simpa using (List.all_eq_true.1 hall) f hf
        refine ⟨h.remap hi hbel ids hc hb hall' hr, ?_⟩
        intro i hi'
        rcases List.mem_append.1 hi' with hi' | hi'
        · have := (List.mem_filter.1 hi').1
          exact Or.inl ⟨this, hb i this⟩
        · refine Or.inr ⟨List.mem_singleton.1 hi', ?_⟩
          obtain ⟨f, hf, hfb⟩ := List.any_eq_true.1 hany
          exact ⟨f, hf, by simpa using hfb⟩
    · rw [if_neg hall] at hd
      cases hd
  · rw [if_neg hany] at hd
    cases hd
    have hno : ∀ f ∈ grp frags ids, f.id ∉ d.bitmap := by
      intro f hf hm
      exact hany (List.any_eq_true.2 ⟨f, hf, by simpa using hm⟩)
    refine ⟨⟨parts, h.frags ?_ ?_⟩, fun i hi' => Or.inl ⟨hi', hb i hi'⟩⟩
    · intro a w hm hl
      have := hb _ hm
      exact ((lookup_compacted_old hi hbel ids (by omega)).1 hl).1
    · intro f hf hm
      rcases List.mem_append.1 hf with hf | hf
      · exact ⟨f, (List.mem_filter.1 hf).1, rfl, Nat.le_refl _⟩
      · cases List.mem_singleton.1 hf
        have := hb _ hm
        simp only at this
        omega

theorem Inv.compact {raw : Bool} {s s' : State V C} (h : Inv raw s) {ids : List Nat} (hs : s.compact ids = some s') : Inv raw s' := by
  unfold State.compact at hs
  simp only at hs
  by_cases hg : (s.frags.filter (fun f => ids.contains f.id)).isEmpty = true
  · rw [if_pos hg] at hs
    cases hs
    exact h
  · rw [if_neg hg] at hs
    have hfr : ∀ ix : Option (Cfg V C × List (Delta C)), (∀ c ds, ix = some (c, ds) → c.Valid ∧ Deltas raw c (compacted s.frags s.next ids) ds ∧ ∀ d ∈ ds, ∀ i ∈ d.bitmap, i < s.next + 1) →
        Inv raw ⟨compacted s.frags s.next ids, s.next + 1, ix⟩ := by
      intro ix hix
      refine ⟨compacted_ids h.ids h.below ids, ?_, hix⟩
      intro f hf
      show f.id < s.next + 1
      rcases List.mem_append.1 hf with hf | hf
      · have := h.below f (List.mem_filter.1 hf).1
        omega
      · cases List.mem_singleton.1 hf
        simp
    cases hix : s.index with
    | none =>
      rw [hix] at hs
      cases hs
      exact hfr none (by intro c ds e; cases e)
    | some cd =>
      obtain ⟨c, ds⟩ := cd
      rw [hix] at hs
      simp only at hs
      obtain ⟨hc, hd, hb⟩ := h.index c ds hix
      cases hm : ds.mapM (Delta.compact (grp s.frags ids) s.next) with
      | none => rw [hm] at hs; cases hs
      | some ds' =>
        rw [hm] at hs
        cases hs
        have each : ∀ (i : Nat) (d' : Delta C), ds'[i]? = some d' → ∃ d, ds[i]? = some d ∧ (∃ parts, DeltaOk raw c (compacted s.frags s.next ids) d' parts) ∧
            ∀ j ∈ d'.bitmap, (j ∈ d.bitmap ∧ j < s.next) ∨ (j = s.next ∧ ∃ f ∈ grp s.frags ids, f.id ∈ d.bitmap) := by
          intro i d' hd'
          obtain ⟨d, h1, h2⟩ := mapM_back hm hd'
          have hmem := List.mem_of_getElem? h1
          exact ⟨d, h1, Delta.compact_ok h.ids h.below ids hc (hd.1 d hmem) (hb d hmem) h2⟩
        have hall : ∀ (i : Nat) (d d' : Delta C), ds[i]? = some d → ds'[i]? = some d' → (∃ f ∈ grp s.frags ids, f.id ∈ d.bitmap) → ∀ f ∈ grp s.frags ids, f.id ∈ d.bitmap := by
          intro i d d' h1 h2 ⟨f, hf, hfb⟩
          obtain ⟨d2, h3, h4⟩ := mapM_back hm h2
          rw [h1] at h3
          cases h3
          unfold Delta.compact at h4
          rw [if_pos (List.any_eq_true.2 ⟨f, hf, by simpa using hfb⟩)] at h4
          by_cases ha : (grp s.frags ids).all (fun f => d.bitmap.contains f.id) = true
          · intro g hg
            simpa using (List.all_eq_true.1 ha) g hg
          · rw [if_neg ha] at h4
            cases h4
        apply hfr
        intro c' ds2 e
        cases e
        refine ⟨hc, ⟨?_, ?_⟩, ?_⟩
        · intro d' hd'
          obtain ⟨i, hi⟩ := List.mem_iff_getElem?.1 hd'
          obtain ⟨d, _, h2, _⟩ := each i d' hi
          exact h2
        · rw [List.pairwise_iff_getElem]
          intro i j hi hj hij x hx hx'
          have gi := List.getElem?_eq_getElem hi
          have gj := List.getElem?_eq_getElem hj
          obtain ⟨d, e1, _, e3⟩ := each i _ gi
          obtain ⟨d2, e1', _, e3'⟩ := each j _ gj
          have hdis := pairwise_getElem hd.2 e1 e1' hij
          rcases e3 x hx with ⟨m1, l1⟩ | ⟨m1, m2⟩ <;> rcases e3' x hx' with ⟨m1', l1'⟩ | ⟨m1', m2'⟩
          · exact hdis x m1 m1'
          · omega
          · omega
          · obtain ⟨f, hf, hfb⟩ := m2
            exact hdis f.id hfb (hall j _ _ e1' gj m2' f hf)
        · intro d' hd' i hi
          obtain ⟨k, hk⟩ := List.mem_iff_getElem?.1 hd'
          obtain ⟨d, _, _, h3⟩ := each k d' hk
          rcases h3 i hi with ⟨_, h4⟩ | ⟨h4, _⟩ <;> omega

theorem Inv.run {raw : Bool} : ∀ {ops : List (Op V C)} {s : State V C}, Inv raw s → Fresh s ops → (raw = true ∨ NoMerge ops) → Inv raw (s.run ops) := by
  intro ops
  induction ops with
  | nil => intro s h _ _; exact h
  | cons op ops ih =>
    intro s h hf hraw
    obtain ⟨h1, h2⟩ := hf
    have hstep : Inv raw ((s.step op).getD s) := by
      cases hs : s.step op with
      | none => exact h
      | some s' =>
        show Inv raw s'
        cases op with
        | append rows => cases hs; exact h.append rows
        | delete p => cases hs; exact h.delete p
        | create c => exact h.create h1 hs
        | optimize n =>
          refine h.optimize ?_ h1 hs
          rcases hraw with e | e
          · exact Or.inl e
          · exact Or.inr (e _ List.mem_cons_self n rfl)
        | compact ids => exact h.compact hs
    exact ih hstep h2 (hraw.imp_right (fun e op' hm => e op' (List.mem_cons_of_mem _ hm)))

end Verif.Vec
