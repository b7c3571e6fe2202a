import Verif.Vec.LemmasShuffle
namespace Verif.Vec
variable {V C : Type}

/-- The file has these partitions. -/
def FileOk (x : IndexFile C) (parts : List (List (Addr × C))) : Prop := x.nparts = parts.length ∧ ∀ p, x.load p = parts[p]?

/-- What is kept while the partitions are written. -/
structure WriteOk (x : IndexFile C) (parts : List (List (Addr × C))) : Prop where
  rows : x.rows = parts.flatten
  lengths : x.lengths = parts.map List.length
  olen : x.offsets.length = parts.length
  offsets : ∀ i, i < parts.length → x.offsets[i]? = some (parts.take i).flatten.length

theorem WriteOk.add {x : IndexFile C} {parts : List (List (Addr × C))} (h : WriteOk x parts) (rows : List (Addr × C)) :
    WriteOk (x.add rows) (parts ++ [rows]) := by
  have hlast : x.offsets.getLast?.getD 0 + x.lengths.getLast?.getD 0 = parts.flatten.length := by
    rw [List.getLast?_eq_getElem?, List.getLast?_eq_getElem?, h.olen, h.lengths, List.length_map]
    by_cases h0 : parts.length = 0
    · have := List.length_eq_zero_iff.1 h0
      subst this
      have ho : x.offsets = [] := List.length_eq_zero_iff.1 (by rw [h.olen]; rfl)
      rw [ho]; rfl
    · rw [h.offsets _ (by omega), List.getElem?_map, List.getElem?_eq_getElem (by omega)]
      simp only [Option.getD_some, Option.map_some]
      have hs := List.take_succ_eq_append_getElem (l := parts) (i := parts.length - 1) (by omega)
      rw [show parts.length - 1 + 1 = parts.length by omega, List.take_length] at hs
      conv => rhs; rw [hs]
      rw [List.flatten_append, List.length_append]
      simp
  refine ⟨by simp [IndexFile.add, h.rows], by simp [IndexFile.add, h.lengths], by simp [IndexFile.add, h.olen], ?_⟩
  intro i hi
  rw [List.length_append, List.length_singleton] at hi
  simp only [IndexFile.add]
  by_cases hl : i < parts.length
  · rw [List.getElem?_append_left (by rw [h.olen]; exact hl), List.take_append_of_le_length (by omega)]
    exact h.offsets i hl
  · have : i = parts.length := by omega
    subst this
    rw [List.getElem?_append_right (by rw [h.olen]; omega), h.olen, Nat.sub_self, hlast]
    simp

theorem WriteOk.fold : ∀ (ps : List (List (Addr × C) × Bool)) {x : IndexFile C} {parts : List (List (Addr × C))}, WriteOk x parts →
    WriteOk (ps.foldl (fun x p => x.add p.1) x) (parts ++ ps.map Prod.fst) ∧ (ps.foldl (fun x p => x.add p.1) x).partCol = x.partCol := by
  intro ps
  induction ps with
  | nil => intro x parts h; simpa using h
  | cons p ps ih =>
    intro x parts h
    obtain ⟨h1, h2⟩ := ih (h.add p.1)
    refine ⟨?_, by rw [List.foldl_cons, h2]; rfl⟩
    rw [List.foldl_cons, List.map_cons, List.append_cons]
    exact h1

theorem WriteOk.file {x : IndexFile C} {parts : List (List (Addr × C))} (h : WriteOk x parts) : FileOk x parts := by
  refine ⟨by rw [IndexFile.nparts, h.lengths, List.length_map], ?_⟩
  intro p
  unfold IndexFile.load
  by_cases hp : p < parts.length
  · rw [h.offsets p hp, h.lengths, List.getElem?_map, List.getElem?_eq_getElem hp]
    simp only [Option.map_some]
    rw [h.rows]
    congr 1
    have hs : parts.flatten = (parts.take p).flatten ++ (parts[p] ++ (parts.drop (p + 1)).flatten) := by
      rw [← List.flatten_cons, ← List.flatten_append, List.getElem_cons_drop, List.take_append_drop]
    rw [hs, List.drop_left, List.take_left]
  · rw [List.getElem?_eq_none (l := x.offsets) (by rw [h.olen]; omega), List.getElem?_eq_none (l := parts) (by omega)]

theorem mergePartitions_spec {parts : List (List (Addr × C) × Bool)} (h : ∃ p ∈ parts, p.1 ≠ []) :
    ∃ x first, mergePartitions parts = some x ∧ FileOk x (parts.map Prod.fst) ∧ first ∈ parts ∧ first.1 ≠ [] ∧ x.partCol = first.2 := by
  obtain ⟨p, hp, hne⟩ := h
  unfold mergePartitions
  rw [if_neg (by intro e; rw [List.isEmpty_iff] at e; subst e; cases hp)]
  cases hf : parts.find? (fun p => !p.1.isEmpty) with
  | none =>
    have := List.find?_eq_none.1 hf p hp
    cases hpp : p.1 with
    | nil => exact absurd hpp hne
    | cons a l => rw [hpp] at this; simp at this
  | some first =>
    obtain ⟨h1, h2⟩ := WriteOk.fold parts (x := ⟨[], [], [], first.2⟩) (parts := []) ⟨rfl, rfl, rfl, by intro i hi; cases hi⟩
    rw [List.nil_append] at h1
    refine ⟨_, first, rfl, h1.file, List.mem_of_find?_eq_some hf, ?_, h2⟩
    have := List.find?_some hf
    intro e
    rw [e] at this
    simp at this

theorem mergePartitions_none {parts : List (List (Addr × C) × Bool)} (h : ∀ p ∈ parts, p.1 = []) : mergePartitions parts = none := by
  unfold mergePartitions
  split
  · rfl
  · have : parts.find? (fun p => !p.1.isEmpty) = none := by
      rw [List.find?_eq_none]
      intro p hp
      rw [h p hp]
      simp
    rw [this]

theorem mergePartitions_some {parts : List (List (Addr × C) × Bool)} {x : IndexFile C} (h : mergePartitions parts = some x) :
    FileOk x (parts.map Prod.fst) ∧ ∃ first ∈ parts, first.1 ≠ [] ∧ x.partCol = first.2 := by
  by_cases hh : ∃ p ∈ parts, p.1 ≠ []
  · obtain ⟨y, first, h1, h2, h3, h4, h5⟩ := mergePartitions_spec hh
    rw [h] at h1
    cases h1
    exact ⟨h2, first, h3, h4, h5⟩
  · rw [mergePartitions_none (fun p hp => Classical.not_not.1 (fun e => hh ⟨p, hp, e⟩))] at h
    cases h

/-! ### Rows of the dataset -/

theorem mem_scan {f : Frag V} {a : Addr} {v : Option V} : (a, v) ∈ f.scan ↔ a.1 = f.id ∧ a.2 ∉ f.dels ∧ f.rows[a.2]? = some v := by
  unfold Frag.scan
  rw [List.mem_filterMap]
  constructor
  · rintro ⟨⟨w, o⟩, hm, he⟩
    have hm := (List.mem_zipIdx_iff_getElem? (x := (w, o))).1 hm
    simp only at hm he
    split at he
    · cases he
    · cases he
      exact ⟨rfl, ‹_›, hm⟩
  · rintro ⟨h1, h2, h3⟩
    refine ⟨(v, a.2), (List.mem_zipIdx_iff_getElem? (x := (v, a.2))).2 h3, ?_⟩
    simp only [if_neg h2, ← h1]

theorem scan_nodup (f : Frag V) : (f.scan.map Prod.fst).Nodup := by
  have : (f.scan.map Prod.fst).Sublist ((f.rows.zipIdx.map Prod.snd).map (fun o => (f.id, o))) := by
    unfold Frag.scan
    induction f.rows.zipIdx with
    | nil => exact List.Sublist.slnil
    | cons x xs ih =>
      rw [List.filterMap_cons]
      split
      · exact List.Sublist.cons _ ih
      · rename_i b hb
        split at hb
        · cases hb
        · cases hb
          exact List.Sublist.cons_cons _ ih
  refine this.nodup ?_
  rw [List.zipIdx_map_snd, List.nodup_iff_pairwise_ne, List.pairwise_map]
  refine (List.nodup_iff_pairwise_ne.1 (List.nodup_range' (s := 0) (n := f.rows.length) (step := 1))).imp ?_
  intro x y h e
  cases e
  exact h rfl

/-- Fragment ids are distinct. -/
def Ids (frags : List (Frag V)) : Prop := (frags.map Frag.id).Nodup

theorem find_frag {frags : List (Frag V)} (hi : Ids frags) {f : Frag V} (hf : f ∈ frags) : frags.find? (fun g => g.id == f.id) = some f := by
  induction frags with
  | nil => cases hf
  | cons g gs ih =>
    rw [Ids, List.map_cons, List.nodup_cons] at hi
    rcases List.mem_cons.1 hf with rfl | hf
    · rw [List.find?_cons_of_pos (by simp)]
    · rw [List.find?_cons_of_neg]
      · exact ih hi.2 hf
      · intro e
        rw [beq_iff_eq] at e
        exact hi.1 (by rw [e]; exact List.mem_map_of_mem hf)

theorem lookup_iff {frags : List (Frag V)} (hi : Ids frags) {a : Addr} {v : Option V} : lookup frags a = some v ↔ ∃ f ∈ frags, (a, v) ∈ f.scan := by
  unfold lookup
  constructor
  · intro h
    cases hf : frags.find? (fun f => f.id == a.1) with
    | none => rw [hf] at h; cases h
    | some f =>
      rw [hf] at h
      simp only at h
      split at h
      · cases h
      · rename_i hd
        have := List.find?_some hf
        rw [beq_iff_eq] at this
        exact ⟨f, List.mem_of_find?_eq_some hf, mem_scan.2 ⟨this.symm, hd, h⟩⟩
  · rintro ⟨f, hf, hs⟩
    obtain ⟨h1, h2, h3⟩ := mem_scan.1 hs
    rw [h1, find_frag hi hf]
    simp only [if_neg h2, h3]

theorem flatScan_nodup {frags : List (Frag V)} (hi : Ids frags) : ((frags.flatMap Frag.scan).map Prod.fst).Nodup := by
  induction frags with
  | nil => exact List.nodup_nil
  | cons f fs ih =>
    rw [Ids, List.map_cons, List.nodup_cons] at hi
    rw [List.flatMap_cons, List.map_append, List.nodup_append]
    refine ⟨scan_nodup f, ih hi.2, ?_⟩
    intro a ha b hb e
    subst e
    obtain ⟨⟨a1, v⟩, h1, rfl⟩ := List.mem_map.1 ha
    obtain ⟨⟨a2, w⟩, h2, he⟩ := List.mem_map.1 hb
    simp only at he
    subst he
    obtain ⟨g, hg, h2⟩ := List.mem_flatMap.1 h2
    have := (mem_scan.1 h1).1.symm.trans (mem_scan.1 h2).1
    exact hi.1 (by rw [this]; exact List.mem_map_of_mem hg)

theorem mem_vectorsOf {frags : List (Frag V)} (hi : Ids frags) {a : Addr} {v : V} : (a, v) ∈ vectorsOf frags ↔ lookup frags a = some (some v) := by
  unfold vectorsOf
  rw [List.mem_filterMap, lookup_iff hi]
  constructor
  · rintro ⟨⟨b, w⟩, h1, h2⟩
    obtain ⟨f, hf, h1⟩ := List.mem_flatMap.1 h1
    cases w with
    | none => cases h2
    | some w => cases h2; exact ⟨f, hf, h1⟩
  · rintro ⟨f, hf, h1⟩
    exact ⟨(a, some v), List.mem_flatMap.2 ⟨f, hf, h1⟩, rfl⟩

theorem filterMap_fst_sublist {α β : Type} (g : α × Option β → Option (α × β)) (hg : ∀ r, g r = r.2.map (fun v => (r.1, v))) (l : List (α × Option β)) :
    ((l.filterMap g).map Prod.fst).Sublist (l.map Prod.fst) := by
  induction l with
  | nil => exact List.Sublist.slnil
  | cons x xs ih =>
    obtain ⟨a, v⟩ := x
    rw [List.filterMap_cons, hg]
    cases v with
    | none => exact List.Sublist.cons _ ih
    | some v => exact List.Sublist.cons_cons _ ih

theorem vectorsOf_nodup {frags : List (Frag V)} (hi : Ids frags) : ((vectorsOf frags).map Prod.fst).Nodup :=
  (filterMap_fst_sublist _ (fun _ => rfl) _).nodup (flatScan_nodup hi)

/-! ### Taking the vectors of an index -/

theorem takeVectors_ok {frags : List (Frag V)} : ∀ {ids : List Addr} (g : Addr → V), (∀ a ∈ ids, lookup frags a = some (some (g a))) →
    takeVectors frags ids = some (ids.map (fun a => (a, g a))) := by
  intro ids g h
  have hall : ids.all (fun a => (frags.find? (fun f => f.id == a.1)).isSome) = true := by
    rw [List.all_eq_true]
    intro a ha
    have := h a ha
    unfold lookup at this
    cases hf : frags.find? (fun f => f.id == a.1) with
    | none => rw [hf] at this; cases this
    | some f => rfl
  have hfm : ids.filterMap (lookup frags) = ids.map (fun a => some (g a)) := by
    clear hall
    induction ids with
    | nil => rfl
    | cons a as ih =>
      rw [List.filterMap_cons_some (h a List.mem_cons_self), ih (fun b hb => h b (List.mem_cons_of_mem _ hb))]
      rfl
  unfold takeVectors takeRows
  rw [if_pos hall, hfm]
  simp only [List.length_map, if_true]
  clear hall hfm h
  induction ids with
  | nil => rfl
  | cons a as ih =>
    simp only [List.map_cons, List.zip_cons_cons, List.mapM_cons, ih]
    rfl

theorem takeVectors_some {frags : List (Frag V)} {ids : List Addr} {out : List (Addr × V)} (h : takeVectors frags ids = some out) :
    out.map Prod.fst = ids ∧ ∀ r ∈ out, lookup frags r.1 = some (some r.2) := by
  unfold takeVectors at h
  cases ht : takeRows frags ids with
  | none => rw [ht] at h; cases h
  | some vs =>
    rw [ht] at h
    simp only at h
    split at h
    · rename_i hlen
      unfold takeRows at ht
      split at ht
      · cases ht
        rename_i hall
        clear hall
        induction ids generalizing out with
        | nil =>
          cases h
          exact ⟨rfl, by intro r hr; cases hr⟩
        | cons a as ih =>
          cases hl : lookup frags a with
          | none =>
            rw [List.filterMap_cons_none hl] at hlen
            have := List.length_filterMap_le (lookup frags) as
            rw [List.length_cons] at hlen
            omega
          | some v =>
            rw [List.filterMap_cons_some hl] at hlen h
            simp only [List.zip_cons_cons, List.mapM_cons] at h
            cases v with
            | none => cases h
            | some v =>
              cases hr : (as.zip (as.filterMap (lookup frags))).mapM (fun iv => iv.2.map (fun v => (iv.1, v))) with
              | none => simp [hr] at h
              | some rs =>
                simp [hr] at h
                obtain ⟨h1, h2⟩ := ih (by rw [List.length_cons, List.length_cons] at hlen; omega) hr
                subst h
                refine ⟨by rw [List.map_cons, h1], ?_⟩
                intro r hrm
                rcases List.mem_cons.1 hrm with rfl | hr
                · exact hl
                · exact h2 r hr
      · cases ht
    · cases h

end Verif.Vec
