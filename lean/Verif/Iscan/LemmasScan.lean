import Verif.Iscan.LemmasExpr

/-! The ids that the index lookup materializes are those of the live rows that the mask selects. -/
namespace Verif.Iscan
open Verif
open Verif.RowSet (TreeMap Mask contains selected newFromParts fragmentId rowOffset)
open Verif.Expr
open Verif.Scalar (LinOrd)
open Verif.Prefilter (FragOK LiveAddr LiveId dvIter)

variable {V : Type}

/-! ### Masks of index queries -/

/-- Whatever holds of the sets that the indices return, and is kept by unions and intersections, holds of the lists of
the mask. -/
theorem evaluate_all {X : Indices V} (P : TreeMap → Prop) (hand : ∀ a b, P a → P b → P (RowSet.and a b))
    (hor : ∀ a b, P a → P b → P (RowSet.or a b)) (q : IxExpr V)
    (hs : ∀ c ∈ IxExpr.cols q, ∀ s t, X.search c s = some t → P t)
    (hl : ∀ c ∈ IxExpr.cols q, ∀ s t, X.labels c s = some t → P t) {m : Mask} (hm : evaluate X q = some m) :
    (∀ a, m.allow = some a → P a) ∧ ∀ b, m.block = some b → P b := by
  induction q generalizing m with
  | query c s =>
    simp only [evaluate, Option.map_eq_some_iff] at hm
    obtain ⟨t, ht, rfl⟩ := hm
    exact ⟨fun a ha => by cases ha; exact hs c (by simp [IxExpr.cols]) s t ht, fun b hb => nomatch hb⟩
  | labels c s =>
    simp only [evaluate, Option.map_eq_some_iff] at hm
    obtain ⟨t, ht, rfl⟩ := hm
    exact ⟨fun a ha => by cases ha; exact hl c (by simp [IxExpr.cols]) s t ht, fun b hb => nomatch hb⟩
  | not e ih =>
    simp only [evaluate, Option.map_eq_some_iff] at hm
    obtain ⟨t, ht, rfl⟩ := hm
    exact ⟨(ih hs hl ht).2, (ih hs hl ht).1⟩
  | and l r ihl ihr =>
    simp only [evaluate] at hm
    cases h1 : evaluate X l with
    | none => rw [h1] at hm; cases hm
    | some a =>
      cases h2 : evaluate X r with
      | none => rw [h1, h2] at hm; cases hm
      | some b =>
        rw [h1, h2] at hm
        cases hm
        obtain ⟨i1, i2⟩ := ihl (fun c hc => hs c (List.mem_append_left _ hc))
          (fun c hc => hl c (List.mem_append_left _ hc)) h1
        obtain ⟨j1, j2⟩ := ihr (fun c hc => hs c (List.mem_append_right _ hc))
          (fun c hc => hl c (List.mem_append_right _ hc)) h2
        obtain ⟨aa, ab⟩ := a
        obtain ⟨ba, bb⟩ := b
        refine ⟨fun x hx => ?_, fun x hx => ?_⟩
        · cases aa <;> cases ba <;> cases hx
          · exact j1 _ rfl
          · exact i1 _ rfl
          · exact hand _ _ (i1 _ rfl) (j1 _ rfl)
        · cases ab <;> cases bb <;> cases hx
          · exact j2 _ rfl
          · exact i2 _ rfl
          · exact hor _ _ (i2 _ rfl) (j2 _ rfl)
  | or l r ihl ihr =>
    simp only [evaluate] at hm
    cases h1 : evaluate X l with
    | none => rw [h1] at hm; cases hm
    | some a =>
      cases h2 : evaluate X r with
      | none => rw [h1, h2] at hm; cases hm
      | some b =>
        rw [h1, h2] at hm
        cases hm
        obtain ⟨i1, i2⟩ := ihl (fun c hc => hs c (List.mem_append_left _ hc))
          (fun c hc => hl c (List.mem_append_left _ hc)) h1
        obtain ⟨j1, j2⟩ := ihr (fun c hc => hs c (List.mem_append_right _ hc))
          (fun c hc => hl c (List.mem_append_right _ hc)) h2
        obtain ⟨aa, ab⟩ := a
        obtain ⟨ba, bb⟩ := b
        refine ⟨fun x hx => ?_, fun x hx => ?_⟩
        · cases aa <;> cases ba <;> cases hx
          exact hor _ _ (i1 _ rfl) (j1 _ rfl)
        · cases ab <;> cases bb <;> cases hx
          · exact j2 _ rfl
          · exact i2 _ rfl
          · exact hand _ _ (i2 _ rfl) (j2 _ rfl)

/-! ### Lists -/

theorem nodup_flatMap {α : Type} (l : List α) (g : α → List Nat) (hp : l.Pairwise (fun a b => ∀ v ∈ g a, v ∉ g b))
    (hn : ∀ a ∈ l, (g a).Nodup) : (l.flatMap g).Nodup := by
  induction l with
  | nil => simp
  | cons a l ih =>
    rw [List.flatMap_cons, List.nodup_append]
    rw [List.pairwise_cons] at hp
    refine ⟨hn a List.mem_cons_self, ih hp.2 (fun b hb => hn b (List.mem_cons_of_mem _ hb)), ?_⟩
    intro v hv w hw e
    subst e
    obtain ⟨b, hb, hw⟩ := List.mem_flatMap.mp hw
    exact hp.1 b hb v hv hw

theorem flatMap_disjoint {α : Type} {l : List α} {g : α → List Nat} (hn : (l.flatMap g).Nodup) {a b : α} (ha : a ∈ l)
    (hb : b ∈ l) {v : Nat} (hva : v ∈ g a) (hvb : v ∈ g b) : a = b := by
  induction l with
  | nil => cases ha
  | cons x l ih =>
    rw [List.flatMap_cons, List.nodup_append] at hn
    rcases List.mem_cons.mp ha with rfl | ha' <;> rcases List.mem_cons.mp hb with rfl | hb'
    · rfl
    · exact absurd rfl (hn.2.2 v hva v (List.mem_flatMap.mpr ⟨b, hb', hvb⟩))
    · exact absurd rfl (hn.2.2 v hvb v (List.mem_flatMap.mpr ⟨a, ha', hva⟩))
    · exact ih hn.2.1 ha' hb'

theorem pairwise_ids {frags : List (Frag V)} (h : (frags.map (·.id)).Nodup) :
    frags.Pairwise (fun a b => a.id ≠ b.id) := by
  rw [List.nodup_iff_pairwise_ne, List.pairwise_map] at h
  exact h

theorem unique_id {frags : List (Frag V)} (h : (frags.map (·.id)).Nodup) {f g : Frag V} (hf : f ∈ frags)
    (hg : g ∈ frags) (e : f.id = g.id) : f = g := by
  induction frags with
  | nil => cases hf
  | cons x l ih =>
    rw [List.map_cons, List.nodup_cons] at h
    rcases List.mem_cons.mp hf with rfl | hf' <;> rcases List.mem_cons.mp hg with rfl | hg'
    · rfl
    · exact absurd (List.mem_map.mpr ⟨g, hg', e.symm⟩) h.1
    · exact absurd (List.mem_map.mpr ⟨f, hf', e⟩) h.1
    · exact ih h.2 hf' hg'

/-! ### Keys of fragments -/

/-- All keys of a fragment, deleted or not. -/
def Frag.keys (stable : Bool) (f : Frag V) : List Nat := (List.range f.rows.length).map (f.key stable)

theorem mem_live {stable : Bool} {f : Frag V} {v : Nat} {env : Env V} :
    (v, env) ∈ f.live stable ↔ ∃ o, f.rows[o]? = some env ∧ f.deleted o = false ∧ f.key stable o = v := by
  unfold Frag.live
  simp only [List.mem_map, List.mem_filter, Prod.mk.injEq, Prod.exists]
  constructor
  · rintro ⟨x, o, ⟨h1, h2⟩, h3, rfl⟩
    exact ⟨o, List.mem_zipIdx_iff_getElem?.mp h1, by simpa using h2, h3⟩
  · rintro ⟨o, h1, h2, h3⟩
    exact ⟨env, o, ⟨List.mem_zipIdx_iff_getElem?.mpr h1, by simpa using h2⟩, h3, rfl⟩

theorem live_sublist (stable : Bool) (f : Frag V) : ((f.live stable).map (·.1)).Sublist (f.keys stable) := by
  unfold Frag.live Frag.keys
  rw [List.map_map]
  have h1 : (f.rows.zipIdx.filter (fun r => !f.deleted r.2)).Sublist f.rows.zipIdx := List.filter_sublist
  have h2 := h1.map (fun r : Env V × Nat => f.key stable r.2)
  refine h2.trans ?_
  have : f.rows.zipIdx.map (fun r => f.key stable r.2) = (f.rows.zipIdx.map (·.2)).map (f.key stable) := by
    rw [List.map_map]; rfl
  rw [this, List.zipIdx_map_snd]
  rw [List.range_eq_range']
  exact List.Sublist.refl _

theorem flatMap_live_sublist (stable : Bool) (frags : List (Frag V)) :
    ((frags.flatMap (Frag.live stable)).map (·.1)).Sublist (frags.flatMap (Frag.keys stable)) := by
  induction frags with
  | nil => exact List.Sublist.refl _
  | cons f fs ih =>
    rw [List.flatMap_cons, List.flatMap_cons, List.map_append]
    exact (live_sublist stable f).append ih

/-- The dataset as it can be read. -/
structure DsOK (stable : Bool) (ds : List (Frag V)) : Prop where
  ids : (ds.map (·.id)).Nodup
  id32 : ∀ f ∈ ds, f.id < 2 ^ 32
  rows32 : ∀ f ∈ ds, f.rows.length ≤ 2 ^ 32
  frag : stable = true → ∀ f ∈ ds, FragOK f.pf ∧ (∀ d, f.dv = some d → (dvIter d).Pairwise (· < ·)) ∧
    (RowIds.Seq.iter f.seq).length = f.rows.length
  seqs : stable = true → (seqIds ds).Nodup
  small : stable = true → ∀ v ∈ seqIds ds, v < 2 ^ 64

theorem keys_stable {f : Frag V} (h : (RowIds.Seq.iter f.seq).length = f.rows.length) :
    f.keys true = RowIds.Seq.iter f.seq := by
  apply List.ext_getElem?
  intro o
  unfold Frag.keys Frag.key
  rw [List.getElem?_map]
  simp only [if_true]
  by_cases ho : o < f.rows.length
  · rw [List.getElem?_range ho]
    simp only [Option.map_some, List.getD_eq_getElem?_getD]
    rw [List.getElem?_eq_getElem (by omega)]
    rfl
  · rw [List.getElem?_eq_none (by simpa using ho), List.getElem?_eq_none (by omega)]
    rfl

theorem flatMap_keys_stable {frags : List (Frag V)}
    (h : ∀ f ∈ frags, (RowIds.Seq.iter f.seq).length = f.rows.length) :
    frags.flatMap (Frag.keys true) = seqIds frags := by
  unfold seqIds
  induction frags with
  | nil => rfl
  | cons f fs ih =>
    rw [List.flatMap_cons, List.flatMap_cons, keys_stable (h f List.mem_cons_self),
      ih (fun g hg => h g (List.mem_cons_of_mem _ hg))]

theorem mem_keys_address {f : Frag V} (hr : f.rows.length ≤ 2 ^ 32) (hi : f.id < 2 ^ 32) {v : Nat} :
    v ∈ f.keys false ↔ v < 2 ^ 64 ∧ fragmentId v = f.id ∧ rowOffset v < f.rows.length := by
  unfold Frag.keys Frag.key
  simp only [List.mem_map, List.mem_range, Bool.false_eq_true, if_false]
  constructor
  · rintro ⟨o, ho, rfl⟩
    obtain ⟨h1, h2, h3⟩ := RowSet.C01_parts_roundtrip f.id o hi (by omega)
    exact ⟨h3, h1, by rw [h2]; exact ho⟩
  · rintro ⟨h1, h2, h3⟩
    exact ⟨rowOffset v, h3, by rw [← h2]; exact RowSet.C01_addr_roundtrip v h1⟩

theorem nodup_keys {stable : Bool} {ds : List (Frag V)} (h : DsOK stable ds) :
    (ds.flatMap (Frag.keys stable)).Nodup := by
  cases stable with
  | true => rw [flatMap_keys_stable (fun f hf => (h.frag rfl f hf).2.2)]; exact h.seqs rfl
  | false =>
    apply nodup_flatMap
    · refine (pairwise_ids h.ids).imp_of_mem ?_
      intro a b ha hb hne v hva hvb
      rw [mem_keys_address (h.rows32 a ha) (h.id32 a ha)] at hva
      rw [mem_keys_address (h.rows32 b hb) (h.id32 b hb)] at hvb
      exact hne (hva.2.1.symm.trans hvb.2.1)
    · intro f hf
      unfold Frag.keys
      rw [List.nodup_iff_pairwise_ne, List.pairwise_map]
      refine (List.nodup_iff_pairwise_ne.mp List.nodup_range).imp_of_mem ?_
      intro a b ha hb hne e
      have h1 := h.rows32 f hf
      rw [List.mem_range] at ha hb
      unfold Frag.key at e
      simp only [Bool.false_eq_true, if_false] at e
      rw [RowSet.newFromParts_eq (by omega), RowSet.newFromParts_eq (by omega)] at e
      omega

theorem nodup_live {stable : Bool} {ds : List (Frag V)} (h : DsOK stable ds) :
    ((ds.flatMap (Frag.live stable)).map (·.1)).Nodup :=
  (flatMap_live_sublist stable ds).nodup (nodup_keys h)

theorem fst_unique {α : Type} {l : List (Nat × α)} (h : (l.map (·.1)).Nodup) {v : Nat} {a b : α} (ha : (v, a) ∈ l)
    (hb : (v, b) ∈ l) : a = b := by
  induction l with
  | nil => cases ha
  | cons x l ih =>
    rw [List.map_cons, List.nodup_cons] at h
    rcases List.mem_cons.mp ha with ha' | ha' <;> rcases List.mem_cons.mp hb with hb' | hb'
    · rw [← ha'] at hb'; cases hb'; rfl
    · exact absurd (List.mem_map.mpr ⟨_, hb', by rw [← ha']⟩) h.1
    · exact absurd (List.mem_map.mpr ⟨_, ha', by rw [← hb']⟩) h.1
    · exact ih h.2 ha' hb'

theorem nodup_of_fst {α : Type} {l : List (Nat × α)} (h : (l.map (·.1)).Nodup) : l.Nodup := by
  rw [List.nodup_iff_pairwise_ne, List.pairwise_map] at h
  exact List.nodup_iff_pairwise_ne.mpr (h.imp (fun hne e => hne (by rw [e])))

/-! ### Row ids of a mask -/

theorem fragIds_keys (frags : List (Frag V)) : fragIds frags = frags.flatMap (Frag.keys false) := by
  cases frags <;> rfl

theorem rowIds_address {ds frags arrive : List (Frag V)} (h : DsOK false ds) (hf : ∀ f ∈ frags, f ∈ ds)
    (hd : (frags.map (·.id)).Nodup) (m : Mask)
    (ha : ∀ a, m.allow = some a → Tidy a ∧ ∀ v, v < 2 ^ 64 → contains a v = true → ∀ f ∈ frags, f.id = fragmentId v →
      rowOffset v < f.rows.length) :
    ∃ ids, rowIdsForMask false frags arrive m = some ids ∧ ids.Nodup ∧
      ∀ v, v ∈ ids ↔ v ∈ frags.flatMap (Frag.keys false) ∧ selected m v = true := by
  have hnd : (frags.flatMap (Frag.keys false)).Nodup :=
    nodup_keys ⟨hd, fun f hm => h.id32 f (hf f hm), fun f hm => h.rows32 f (hf f hm), fun h => (nomatch h),
      fun h => (nomatch h), fun h => (nomatch h)⟩
  have hmem : ∀ v, v ∈ frags.flatMap (Frag.keys false) ↔
      v < 2 ^ 64 ∧ ∃ f ∈ frags, f.id = fragmentId v ∧ rowOffset v < f.rows.length := by
    intro v
    rw [List.mem_flatMap]
    constructor
    · rintro ⟨f, hm, hv⟩
      rw [mem_keys_address (h.rows32 f (hf f hm)) (h.id32 f (hf f hm))] at hv
      exact ⟨hv.1, f, hm, hv.2.1.symm, hv.2.2⟩
    · rintro ⟨h1, f, hm, h2, h3⟩
      exact ⟨f, hm, (mem_keys_address (h.rows32 f (hf f hm)) (h.id32 f (hf f hm))).mpr ⟨h1, h2.symm, h3⟩⟩
  have hallow : ∀ a, m.allow = some a → ∃ ids, RowSet.rowIds (RowSet.retainFragments a (frags.map (·.id))) = some ids ∧
      ids.Nodup ∧ ∀ v, v ∈ ids ↔ v ∈ frags.flatMap (Frag.keys false) ∧ contains a v = true := by
    intro a hm
    obtain ⟨h1, h2⟩ := ha a hm
    obtain ⟨ids, e1, _, e2, e3, e4⟩ := rowIds_tidy (tidy_retainFragments h1 (frags.map (·.id)))
    refine ⟨ids, e1, e2, fun v => ?_⟩
    constructor
    · intro hv
      have hlt := e3 v hv
      rw [e4 v hlt, contains_retain h1.1, List.mem_map] at hv
      obtain ⟨hc, f, hfm, hfi⟩ := hv
      exact ⟨(hmem v).mpr ⟨hlt, f, hfm, hfi, h2 v hlt hc f hfm hfi⟩, hc⟩
    · rintro ⟨hv, hc⟩
      obtain ⟨hlt, f, hfm, hfi, _⟩ := (hmem v).mp hv
      rw [e4 v hlt, contains_retain h1.1, List.mem_map]
      exact ⟨hc, f, hfm, hfi⟩
  obtain ⟨al, bl⟩ := m
  unfold rowIdsForMask retain
  simp only [Bool.false_eq_true, if_false, fragIds_keys]
  cases al with
  | none =>
    cases bl with
    | none => exact ⟨_, rfl, hnd, fun v => by simp [selected]⟩
    | some b =>
      refine ⟨_, rfl, hnd.filter _, fun v => ?_⟩
      rw [List.mem_filter]
      rfl
  | some a =>
    obtain ⟨ids, e1, e2, e3⟩ := hallow a rfl
    cases bl with
    | none =>
      simp only [Option.bind_some, e1]
      exact ⟨ids, rfl, e2, fun v => by rw [e3 v]; rfl⟩
    | some b =>
      simp only [Option.bind_some, e1]
      refine ⟨_, rfl, e2.filter _, fun v => ?_⟩
      rw [List.mem_filter, e3 v]
      simp only [selected, Bool.and_eq_true, and_assoc]

theorem seqSets_spec (frags : List (Frag V)) (hf : ∀ f ∈ frags, FragOK f.pf) (m : TreeMap) (hm : Tidy m) :
    ∃ m', seqSets frags m = some m' ∧ Tidy m' ∧
      ∀ v, v < 2 ^ 64 → (contains m' v = true ↔ contains m v = true ∨ v ∈ seqIds frags) := by
  induction frags generalizing m with
  | nil => exact ⟨m, rfl, hm, fun v _ => by simp [seqIds]⟩
  | cons f fs ih =>
    have hok := hf f List.mem_cons_self
    obtain ⟨s, h1, h2⟩ := RowIds.Seq.C12_row_set_partial f.seq hok.conv
      (hok.apart.imp (fun {a b} h v hv hg => h v hv (Or.inl hg)))
    have ht := tidy_toTreeMap h1
    obtain ⟨m', h3, h4, h5⟩ := ih (fun g hg => hf g (List.mem_cons_of_mem _ hg)) (RowSet.or m s) (tidy_or hm ht)
    refine ⟨m', by simp only [seqSets, h1, h3], h4, fun v hv => ?_⟩
    rw [h5 v hv, Scalar.contains_or ht.plain, h2 v hv]
    simp only [seqIds, List.flatMap_cons, List.mem_append]
    rw [or_assoc]

theorem rowIds_stable {frags arrive : List (Frag V)} (hf : ∀ f ∈ frags, FragOK f.pf) (hp : arrive.Perm frags)
    (hd : (seqIds frags).Nodup) (h64 : ∀ v ∈ seqIds frags, v < 2 ^ 64) (m : Mask) (ha : ∀ a, m.allow = some a → Tidy a) :
    (∀ ids, rowIdsForMask true frags arrive m = some ids → ids.Nodup ∧
      ∀ v, v ∈ ids ↔ v ∈ seqIds frags ∧ selected m v = true) ∧
    (m.allow ≠ none ∨ m.block = none → rowIdsForMask true frags arrive m ≠ none) := by
  have hperm : (seqIds arrive).Perm (seqIds frags) := hp.flatMap_right _
  have hnd : (seqIds arrive).Nodup := hperm.nodup_iff.mpr hd
  obtain ⟨S, s1, s2, s3⟩ := seqSets_spec arrive (fun f hm => hf f (hp.mem_iff.mp hm)) [] tidy_nil
  have hS : ∀ v, v < 2 ^ 64 → (contains S v = true ↔ v ∈ seqIds frags) := by
    intro v hv
    rw [s3 v hv, ← hperm.mem_iff]
    simp [Scalar.contains_nil]
  have hallow : ∀ a, m.allow = some a → ∃ ids, RowSet.rowIds (RowSet.and a S) = some ids ∧
      ids.Nodup ∧ ∀ v, v ∈ ids ↔ v ∈ seqIds frags ∧ contains a v = true := by
    intro a hm
    have h1 := ha a hm
    obtain ⟨ids, e1, _, e2, e3, e4⟩ := rowIds_tidy (tidy_and h1 s2)
    refine ⟨ids, e1, e2, fun v => ?_⟩
    constructor
    · intro hv
      have hlt := e3 v hv
      rw [e4 v hlt, Scalar.contains_and h1.plain, hS v hlt] at hv
      exact ⟨hv.2, hv.1⟩
    · rintro ⟨hv, hc⟩
      have hlt := h64 v hv
      rw [e4 v hlt, Scalar.contains_and h1.plain, hS v hlt]
      exact ⟨hc, hv⟩
  obtain ⟨al, bl⟩ := m
  unfold rowIdsForMask retain
  simp only [if_true, s1, Option.map_some]
  cases al with
  | none =>
    cases bl with
    | none =>
      refine ⟨fun ids e => ?_, fun _ h => (nomatch h)⟩
      cases e
      exact ⟨hnd, fun v => by rw [hperm.mem_iff]; simp [selected]⟩
    | some b =>
      refine ⟨fun ids e => ?_, fun h => by simp at h⟩
      simp only at e
      cases hl : RowSet.len b with
      | none => rw [hl] at e; cases e
      | some n =>
        rw [hl] at e
        simp only at e
        split at e
        · cases e
          refine ⟨hnd.filter _, fun v => ?_⟩
          rw [List.mem_filter, hperm.mem_iff]
          rfl
        · cases e
  | some a =>
    obtain ⟨ids, e1, e2, e3⟩ := hallow a rfl
    cases bl with
    | none =>
      simp only [Option.bind_some, e1]
      refine ⟨fun l e => ?_, fun _ h => (nomatch h)⟩
      cases e
      exact ⟨e2, fun v => by rw [e3 v]; rfl⟩
    | some b =>
      simp only [Option.bind_some, e1]
      refine ⟨fun l e => ?_, fun _ h => (nomatch h)⟩
      cases e
      refine ⟨e2.filter _, fun v => ?_⟩
      rw [List.mem_filter, e3 v]
      simp only [selected, Bool.and_eq_true, and_assoc]

/-- A negated query with stable row ids goes through if the blocked rows are rows of the scanned fragments. -/
theorem rowIds_stable_block {frags arrive : List (Frag V)} (hp : arrive.Perm frags) (b : TreeMap) (hb : Tidy b)
    (hin : ∀ v, v < 2 ^ 64 → contains b v = true → v ∈ seqIds frags) :
    rowIdsForMask true frags arrive ⟨none, some b⟩ ≠ none := by
  have hperm : (seqIds arrive).Perm (seqIds frags) := hp.flatMap_right _
  obtain ⟨ids, _, e1, e2, e3, e4⟩ := rowIds_tidy hb
  have hle : ids.length ≤ (seqIds arrive).length := by
    have hsub : ∀ v ∈ ids, v ∈ seqIds arrive := fun v hv =>
      hperm.mem_iff.mpr (hin v (e3 v hv) ((e4 v (e3 v hv)).mp hv))
    have gen : ∀ (l k : List Nat), l.Nodup → (∀ v ∈ l, v ∈ k) → l.length ≤ k.length := by
      intro l
      induction l with
      | nil => intro k _ _; exact Nat.zero_le _
      | cons x l ih =>
        intro k hn hs
        rw [List.nodup_cons] at hn
        have h1 : x ∈ k := hs x List.mem_cons_self
        have h2 := ih (k.erase x) hn.2 (by
          intro v hv
          rw [List.mem_erase_of_ne (by rintro rfl; exact hn.1 hv)]
          exact hs v (List.mem_cons_of_mem _ hv))
        rw [List.length_erase_of_mem h1] at h2
        have h3 := List.length_pos_of_mem h1
        simp only [List.length_cons]
        omega
    exact gen ids _ e2 hsub
  unfold rowIdsForMask
  simp only [if_true, e1]
  rw [if_pos hle]
  simp

end Verif.Iscan
