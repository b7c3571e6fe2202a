import Verif.Iscan.LemmasScan

/-! The rows that an indexed scan returns. -/
namespace Verif.Iscan
open Verif
open Verif.RowSet (TreeMap Mask contains selected newFromParts fragmentId rowOffset maskSorted noFull)
open Verif.Expr
open Verif.Scalar (LinOrd)
open Verif.Prefilter (FragOK LiveAddr LiveId dvIter deletionMask Arrival)

variable {V : Type}

theorem DsOK.sub {stable : Bool} {ds frags : List (Frag V)} (h : DsOK stable ds) (hf : ∀ f ∈ frags, f ∈ ds)
    (hd : (frags.map (·.id)).Nodup) : DsOK stable frags := by
  refine ⟨hd, fun f hm => h.id32 f (hf f hm), fun f hm => h.rows32 f (hf f hm), fun e f hm => h.frag e f (hf f hm), ?_, ?_⟩
  · intro e
    have hn := h.seqs e
    unfold seqIds at hn ⊢
    apply nodup_flatMap
    · refine (pairwise_ids hd).imp_of_mem ?_
      intro a b ha hb hne v hva hvb
      exact hne (by rw [flatMap_disjoint hn (hf a ha) (hf b hb) hva hvb])
    · intro f hm
      obtain ⟨p, q, hpq⟩ := List.append_of_mem (hf f hm)
      rw [hpq, List.flatMap_append, List.flatMap_cons, List.nodup_append, List.nodup_append] at hn
      exact hn.2.1.1
  · intro e v hv
    obtain ⟨f, hm, hv⟩ := List.mem_flatMap.mp hv
    exact h.small e v (List.mem_flatMap.mpr ⟨f, hf f hm, hv⟩)

/-! ### Deletions -/

theorem missing_nil {ds frags : List (Frag V)} (hf : ∀ f ∈ frags, f ∈ ds) :
    Prefilter.missing (ds.map Frag.pf) (frags.map (·.id)) = [] := by
  unfold Prefilter.missing
  rw [List.filter_eq_nil_iff]
  intro c hc
  obtain ⟨f, hm, rfl⟩ := List.mem_map.mp hc
  rw [Bool.not_eq_true, Bool.not_eq_false', List.any_eq_true]
  exact ⟨f.pf, List.mem_map.mpr ⟨f, hf f hm, rfl⟩, by simp [Frag.pf]⟩

theorem mem_flatMap_live {stable : Bool} {frags : List (Frag V)} {v : Nat} {env : Env V} :
    (v, env) ∈ frags.flatMap (Frag.live stable) ↔
      ∃ f ∈ frags, ∃ o, f.rows[o]? = some env ∧ f.deleted o = false ∧ f.key stable o = v := by
  rw [List.mem_flatMap]
  exact exists_congr (fun f => and_congr Iff.rfl mem_live)

theorem deleted_false {f : Frag V} {o : Nat} : f.deleted o = false ↔ ∀ d, f.pf.dv = some d → d.contains o = false := by
  unfold Frag.deleted Frag.pf
  cases f.dv <;> simp

theorem pf_ids (ds : List (Frag V)) : (ds.map Frag.pf).map (·.id) = ds.map (·.id) := by
  rw [List.map_map]; rfl

/-- The deletion mask lets a row of the scanned fragments pass exactly if it is live. -/
theorem passes_live {stable : Bool} {ds frags : List (Frag V)} (h : DsOK stable ds) (hf : ∀ f ∈ frags, f ∈ ds)
    (order : List Nat) (ho : stable = false → Arrival (ds.map Frag.pf) (frags.map (·.id)) order) {v : Nat}
    (hv : v ∈ frags.flatMap (Frag.keys stable)) :
    Prefilter.passes (deletionMask stable (ds.map Frag.pf) (frags.map (·.id)) order) v = true ↔
      ∃ env, (v, env) ∈ frags.flatMap (Frag.live stable) := by
  obtain ⟨f, hm, hk⟩ := List.mem_flatMap.mp hv
  cases stable with
  | false =>
    have hk' := (mem_keys_address (h.rows32 f (hf f hm)) (h.id32 f (hf f hm))).mp hk
    rw [Prefilter.C45_addresses (ds.map Frag.pf) (by rw [pf_ids]; exact h.ids) _ order (ho rfl) v
      (List.mem_map.mpr ⟨f, hm, hk'.2.1.symm⟩)]
    constructor
    · rintro ⟨g, hg, e, hl⟩
      obtain ⟨g, hg', rfl⟩ := List.mem_map.mp hg
      have : g = f := unique_id h.ids hg' (hf f hm) (e.trans hk'.2.1)
      subst this
      refine ⟨g.rows[rowOffset v]'hk'.2.2, mem_flatMap_live.mpr ⟨g, hm, rowOffset v, List.getElem?_eq_getElem _, ?_, ?_⟩⟩
      · exact deleted_false.mpr hl
      · unfold Frag.key
        rw [← hk'.2.1]
        exact RowSet.C01_addr_roundtrip v hk'.1
    · rintro ⟨env, he⟩
      obtain ⟨g, hg, o, h1, h2, h3⟩ := mem_flatMap_live.mp he
      have ho' : o < g.rows.length := (List.getElem?_eq_some_iff.mp h1).1
      have h4 := h.rows32 g (hf g hg)
      obtain ⟨r1, r2, _⟩ := RowSet.C01_parts_roundtrip g.id o (h.id32 g (hf g hg)) (by omega)
      have h3 : newFromParts g.id o = v := h3
      refine ⟨g.pf, List.mem_map.mpr ⟨g, hf g hg, rfl⟩, by rw [← h3, r1]; rfl, ?_⟩
      rw [← h3, r2]
      exact deleted_false.mp h2
  | true =>
    have hlen := (h.frag rfl f (hf f hm)).2.2
    rw [keys_stable hlen] at hk
    have hin : v ∈ seqIds ds := List.mem_flatMap.mpr ⟨f, hf f hm, hk⟩
    rw [Prefilter.C45_row_ids_partial (ds.map Frag.pf)
      (by intro g hg; obtain ⟨g, hg', rfl⟩ := List.mem_map.mp hg; exact (h.frag rfl g hg').1)
      (by intro g hg; obtain ⟨g, hg', rfl⟩ := List.mem_map.mp hg; exact (h.frag rfl g hg').2.1) _ order v
      (h.small rfl v hin) (Or.inl ⟨f.id, List.mem_map.mpr ⟨f, hm, rfl⟩, by
        intro g hg e
        obtain ⟨g, hg', rfl⟩ := List.mem_map.mp hg
        rw [unique_id h.ids hg' (hf f hm) e]
        exact hk⟩)]
    constructor
    · rintro ⟨g, hg, o, h1, h2⟩
      obtain ⟨g, hg', rfl⟩ := List.mem_map.mp hg
      have : g = f := flatMap_disjoint (h.seqs rfl) hg' (hf f hm) (List.mem_of_getElem? h1) hk
      subst this
      have ho' : o < g.rows.length := by rw [← hlen]; exact (List.getElem?_eq_some_iff.mp h1).1
      refine ⟨g.rows[o], mem_flatMap_live.mpr ⟨g, hm, o, List.getElem?_eq_getElem _, deleted_false.mpr h2, ?_⟩⟩
      unfold Frag.key
      have h1 : (RowIds.Seq.iter g.seq)[o]? = some v := h1
      simp [List.getD_eq_getElem?_getD, h1]
    · rintro ⟨env, he⟩
      obtain ⟨g, hg, o, h1, h2, h3⟩ := mem_flatMap_live.mp he
      have ho' : o < g.rows.length := (List.getElem?_eq_some_iff.mp h1).1
      have hlg := (h.frag rfl g (hf g hg)).2.2
      refine ⟨g.pf, List.mem_map.mpr ⟨g, hf g hg, rfl⟩, o, ?_, deleted_false.mp h2⟩
      unfold Frag.key at h3
      simp only [if_true, List.getD_eq_getElem?_getD] at h3
      show (RowIds.Seq.iter g.seq)[o]? = some v
      rw [List.getElem?_eq_getElem (by omega)] at h3 ⊢
      rw [← h3]
      rfl

/-! ### The mask with the deletions -/

theorem maskAnd_allow_none (m : Mask) (b : Option TreeMap) : (RowSet.maskAnd m ⟨none, b⟩).allow = m.allow := by
  obtain ⟨a, c⟩ := m
  cases a <;> rfl

theorem allowSets_tidy (frags : List Prefilter.PFrag) (m m' : TreeMap) (h : Tidy m)
    (e : Prefilter.allowSets frags m = some m') : Tidy m' := by
  induction frags generalizing m with
  | nil => cases e; exact h
  | cons f fs ih =>
    unfold Prefilter.allowSets at e
    cases h1 : Prefilter.liveSet f with
    | none => rw [h1] at e; cases e
    | some s =>
      rw [h1] at e
      refine ih _ (tidy_or h ?_) e
      unfold Prefilter.liveSet at h1
      cases hd : f.dv with
      | none => rw [hd] at h1; exact tidy_toTreeMap h1
      | some d =>
        rw [hd] at h1
        simp only at h1
        obtain ⟨q, _, hq⟩ := Option.bind_eq_some_iff.mp h1
        exact tidy_toTreeMap hq

theorem blockMask_noFull (frags : List Prefilter.PFrag) (order : List Nat) :
    ∃ b, Prefilter.blockMask frags [] order = ⟨none, some b⟩ ∧ noFull b := by
  refine ⟨_, rfl, ?_⟩
  apply Prefilter.noFull_foldl _ _ _ _ Prefilter.noFull_nil
  intro m a h
  exact Prefilter.noFull_part m h _ _

theorem deletionMask_address (ds : List Prefilter.PFrag) (cov order : List Nat) :
    deletionMask false ds cov order = .none ∨
      deletionMask false ds cov order = .mask (Prefilter.blockMask ds (Prefilter.missing ds cov) order) := by
  unfold deletionMask
  split
  · exact Or.inl rfl
  · exact Or.inr rfl

theorem deletionMask_stable (ds : List Prefilter.PFrag) (hf : ∀ f ∈ ds, FragOK f)
    (hs : ∀ f ∈ ds, ∀ d, f.dv = some d → (dvIter d).Pairwise (· < ·)) (cov order : List Nat) :
    deletionMask true ds cov order = .none ∨
      ∃ A, deletionMask true ds cov order = .mask ⟨some A, none⟩ ∧ Tidy A := by
  unfold deletionMask
  split
  · exact Or.inl rfl
  · right
    obtain ⟨A, h1, _⟩ := Prefilter.allowSets_spec ds hf hs []
    refine ⟨A, ?_, allowSets_tidy ds [] A tidy_nil h1⟩
    simp [Prefilter.allowMask, h1]

theorem maskSorted_of_tidy {m : Mask} (h1 : ∀ a, m.allow = some a → Tidy a) (h2 : ∀ b, m.block = some b → Tidy b) :
    maskSorted m := ⟨fun a h => (h1 a h).1, fun b h => (h2 b h).1⟩

/-- `materialize` lists the live rows of the fragments that the index query selects, each once. -/
theorem materialize_spec {stable : Bool} {ds frags arrive : List (Frag V)} (h : DsOK stable ds)
    (hf : ∀ f ∈ frags, f ∈ ds) (hd : (frags.map (·.id)).Nodup) (hp : stable = true → arrive.Perm frags) (order : List Nat)
    (ho : stable = false → Arrival (ds.map Frag.pf) (frags.map (·.id)) order) {X : Indices V} {q : IxExpr V} {m : Mask}
    (hm : evaluate X q = some m) (ha : ∀ a, m.allow = some a → Tidy a) (hb : ∀ b, m.block = some b → Tidy b)
    (hin : stable = false → ∀ a, m.allow = some a → ∀ v, v < 2 ^ 64 → contains a v = true → ∀ f ∈ frags,
      f.id = fragmentId v → rowOffset v < f.rows.length) :
    (∀ ids, materialize stable ds frags arrive order X q = some ids → ids.Nodup ∧
      ∀ v, v ∈ ids ↔ (∃ env, (v, env) ∈ frags.flatMap (Frag.live stable)) ∧ selected m v = true) ∧
    (stable = false ∨ m.allow ≠ none ∨ m.block = none ∨ (∀ b, m.block = some b → ∀ v, v < 2 ^ 64 →
        contains b v = true → v ∈ frags.flatMap (Frag.keys stable)) →
      materialize stable ds frags arrive order X q ≠ none) := by
  have hlive : ∀ v, (∃ env, (v, env) ∈ frags.flatMap (Frag.live stable)) → v ∈ frags.flatMap (Frag.keys stable) := by
    rintro v ⟨env, he⟩
    exact (flatMap_live_sublist stable frags).subset (List.mem_map.mpr ⟨_, he, rfl⟩)
  have hpass := fun v hv => passes_live h hf order ho (v := v) hv
  -- ids of a mask that says what `m` and the deletions say
  have fin : ∀ (ids : List Nat) (M : Mask), (∀ v, v ∈ ids ↔ v ∈ frags.flatMap (Frag.keys stable) ∧ selected M v = true) →
      (∀ v, v ∈ frags.flatMap (Frag.keys stable) → selected M v = (selected m v &&
        Prefilter.passes (deletionMask stable (ds.map Frag.pf) (frags.map (·.id)) order) v)) →
      ∀ v, v ∈ ids ↔ (∃ env, (v, env) ∈ frags.flatMap (Frag.live stable)) ∧ selected m v = true := by
    intro ids M h1 h2 v
    rw [h1 v]
    constructor
    · rintro ⟨hv, hs⟩
      rw [h2 v hv, Bool.and_eq_true] at hs
      exact ⟨(hpass v hv).mp hs.2, hs.1⟩
    · rintro ⟨he, hs⟩
      have hv := hlive v he
      refine ⟨hv, ?_⟩
      rw [h2 v hv, Bool.and_eq_true]
      exact ⟨hs, (hpass v hv).mpr he⟩
  unfold materialize
  rw [hm]
  simp only [Option.bind_some]
  cases stable with
  | false =>
    have hmiss := missing_nil hf
    obtain ⟨b, hb1, hb2⟩ := blockMask_noFull (ds.map Frag.pf) order
    have hbs := Prefilter.blockMask_sorted (ds.map Frag.pf) [] order
    rcases deletionMask_address (ds.map Frag.pf) (frags.map (·.id)) order with hdm | hdm
    · rw [hdm] at fin ⊢
      obtain ⟨ids, e1, e2, e3⟩ := rowIds_address (arrive := arrive) h hf hd m (fun a h => ⟨ha a h, hin rfl a h⟩)
      simp only [e1]
      refine ⟨?_, fun _ => by simp⟩
      intro l e
      cases e
      exact ⟨e2, fin ids m e3 (fun v _ => by simp [Prefilter.passes])⟩
    · rw [hmiss, hb1] at hdm
      rw [hb1] at hbs
      rw [hdm] at fin ⊢
      have hal := maskAnd_allow_none m (some b)
      obtain ⟨ids, e1, e2, e3⟩ := rowIds_address (arrive := arrive) h hf hd (RowSet.maskAnd m ⟨none, some b⟩)
        (fun a h => ⟨ha a (by rw [← hal]; exact h), hin rfl a (by rw [← hal]; exact h)⟩)
      simp only [e1]
      refine ⟨?_, fun _ => by simp⟩
      intro l e
      cases e
      refine ⟨e2, fin ids _ e3 (fun v _ => ?_)⟩
      rw [RowSet.C04_and_partial m ⟨none, some b⟩ (maskSorted_of_tidy ha hb) hbs (fun b' e _ => by cases e; exact hb2)]
      rfl
  | true =>
    have hsub := h.sub hf hd
    have hkeys : frags.flatMap (Frag.keys true) = seqIds frags :=
      flatMap_keys_stable (fun f hm => (h.frag rfl f (hf f hm)).2.2)
    rw [hkeys] at fin ⊢
    have hok : ∀ f ∈ frags, FragOK f.pf := fun f hm => (h.frag rfl f (hf f hm)).1
    rcases deletionMask_stable (ds.map Frag.pf)
      (by intro g hg; obtain ⟨g, hg', rfl⟩ := List.mem_map.mp hg; exact (h.frag rfl g hg').1)
      (by intro g hg; obtain ⟨g, hg', rfl⟩ := List.mem_map.mp hg; exact (h.frag rfl g hg').2.1)
      (frags.map (·.id)) order with hdm | ⟨A, hdm, hA⟩
    · rw [hdm] at fin ⊢
      obtain ⟨k1, k2⟩ := rowIds_stable hok (hp rfl) (hsub.seqs rfl) (hsub.small rfl) m ha
      refine ⟨fun ids e => ?_, ?_⟩
      · obtain ⟨e2, e3⟩ := k1 ids e
        exact ⟨e2, fin ids m e3 (fun v _ => by simp [Prefilter.passes])⟩
      · rintro (h' | h' | h' | h')
        · cases h'
        · exact k2 (Or.inl h')
        · exact k2 (Or.inr h')
        · cases hal : m.allow with
          | some a => exact k2 (Or.inl (by rw [hal]; simp))
          | none =>
            cases hbl : m.block with
            | none => exact k2 (Or.inr hbl)
            | some b =>
              have := rowIds_stable_block (hp rfl) b (hb b hbl) (h' b hbl)
              obtain ⟨x, y⟩ := m
              cases hal
              cases hbl
              exact this
    · rw [hdm] at fin ⊢
      have hal : ∀ a, (RowSet.maskAnd m ⟨some A, none⟩).allow = some a → Tidy a := by
        intro a e
        obtain ⟨x, y⟩ := m
        cases x with
        | none => cases e; exact hA
        | some x => cases e; exact tidy_and (ha x rfl) hA
      obtain ⟨k1, k2⟩ := rowIds_stable hok (hp rfl) (hsub.seqs rfl) (hsub.small rfl) (RowSet.maskAnd m ⟨some A, none⟩) hal
      refine ⟨fun ids e => ?_, fun _ => k2 (Or.inl ?_)⟩
      · obtain ⟨e2, e3⟩ := k1 ids e
        refine ⟨e2, fin ids _ e3 (fun v _ => ?_)⟩
        rw [RowSet.C04_and_partial m ⟨some A, none⟩ (maskSorted_of_tidy ha hb)
          ⟨fun a e => by cases e; exact hA.1, fun b e => nomatch e⟩ (fun b e => nomatch e)]
        rfl
      · obtain ⟨x, y⟩ := m
        cases x <;> simp [RowSet.maskAnd]

/-! ### Taking rows -/

theorem find_live {stable : Bool} {ds : List (Frag V)} (h : DsOK stable ds) {v : Nat} {env : Env V}
    (hv : (v, env) ∈ ds.flatMap (Frag.live stable)) : findRow stable ds v = some (v, env) := by
  unfold findRow
  cases e : (ds.flatMap (Frag.live stable)).find? (fun r => r.1 == v) with
  | none =>
    rw [List.find?_eq_none] at e
    exact absurd (by simp) (e _ hv)
  | some r =>
    have h1 := List.find?_some e
    have h2 := List.mem_of_find?_eq_some e
    obtain ⟨w, env'⟩ := r
    simp only [beq_iff_eq] at h1
    subst h1
    rw [fst_unique (nodup_live h) h2 hv]

theorem takeRows_spec {stable : Bool} {ds : List (Frag V)} (h : DsOK stable ds) (ids : List Nat)
    (hi : ∀ v ∈ ids, ∃ env, (v, env) ∈ ds.flatMap (Frag.live stable)) :
    ∃ rows, takeRows stable ds ids = some rows ∧ rows.map (·.1) = ids ∧
      ∀ r ∈ rows, r ∈ ds.flatMap (Frag.live stable) := by
  induction ids with
  | nil => exact ⟨[], rfl, rfl, by simp⟩
  | cons v vs ih =>
    obtain ⟨rows, h1, h2, h3⟩ := ih (fun w hw => hi w (List.mem_cons_of_mem _ hw))
    obtain ⟨env, he⟩ := hi v List.mem_cons_self
    refine ⟨(v, env) :: rows, by simp only [takeRows, find_live h he, h1], by simp [h2], ?_⟩
    intro r hr
    rcases List.mem_cons.mp hr with rfl | hr
    · exact he
    · exact h3 r hr

/-- The rows taken are those of the fragments that the mask selects. -/
theorem taken_perm {stable : Bool} {ds frags : List (Frag V)} (h : DsOK stable ds) (hf : ∀ f ∈ frags, f ∈ ds)
    (hd : (frags.map (·.id)).Nodup) (ids : List Nat) (hn : ids.Nodup) (m : Mask)
    (hi : ∀ v, v ∈ ids ↔ (∃ env, (v, env) ∈ frags.flatMap (Frag.live stable)) ∧ selected m v = true) :
    ∃ rows, takeRows stable ds ids = some rows ∧
      rows.Perm ((frags.flatMap (Frag.live stable)).filter (fun r => selected m r.1)) := by
  have hsub : ∀ r ∈ frags.flatMap (Frag.live stable), r ∈ ds.flatMap (Frag.live stable) := by
    intro r hr
    obtain ⟨f, hm, hr⟩ := List.mem_flatMap.mp hr
    exact List.mem_flatMap.mpr ⟨f, hf f hm, hr⟩
  obtain ⟨rows, h1, h2, h3⟩ := takeRows_spec h ids (fun v hv => by
    obtain ⟨⟨env, he⟩, _⟩ := (hi v).mp hv
    exact ⟨env, hsub _ he⟩)
  refine ⟨rows, h1, ?_⟩
  have hnr : rows.Nodup := nodup_of_fst (by rw [h2]; exact hn)
  have hnf : (frags.flatMap (Frag.live stable)).Nodup := nodup_of_fst (nodup_live (h.sub hf hd))
  rw [List.perm_ext_iff_of_nodup hnr (hnf.filter _)]
  rintro ⟨v, env⟩
  rw [List.mem_filter]
  constructor
  · intro hr
    have hv : v ∈ ids := by rw [← h2]; exact List.mem_map.mpr ⟨_, hr, rfl⟩
    obtain ⟨⟨env', he⟩, hs⟩ := (hi v).mp hv
    rw [fst_unique (nodup_live h) (h3 _ hr) (hsub _ he)]
    exact ⟨he, hs⟩
  · rintro ⟨hr, hs⟩
    have hv : v ∈ ids := (hi v).mpr ⟨⟨env, hr⟩, hs⟩
    rw [← h2] at hv
    obtain ⟨⟨w, env'⟩, hw, e⟩ := List.mem_map.mp hv
    simp only at e
    subst e
    rw [fst_unique (nodup_live h) (hsub _ hr) (h3 _ hw)]
    exact hw

/-! ### Both parts -/

theorem filter_split_perm {α : Type} (l : List α) (p : α → Bool) :
    (l.filter p ++ l.filter (fun x => !p x)).Perm l := by
  induction l with
  | nil => exact List.Perm.refl _
  | cons a l ih =>
    cases hp : p a with
    | true => simpa [hp] using ih
    | false =>
      rw [List.filter_cons_of_neg (by simp [hp]), List.filter_cons_of_pos (by simp [hp])]
      exact List.perm_middle.trans (ih.cons a)

/-- Indices that answer exactly for the live rows of the fragments they cover. -/
structure IndicesOK [LinOrd V] (stable : Bool) (ds : List (Frag V)) (cover : Nat → List Nat) (X : Indices V) : Prop where
  tidy : ∀ c s t, X.search c s = some t → Tidy t
  tidyLabels : ∀ c s t, X.labels c s = some t → Tidy t
  scalar : ∀ c, ∀ f ∈ ds, f.id ∈ cover c → ∀ v env, (v, env) ∈ f.live stable → ∀ s s' t, s.toScalar = some s' →
    X.search c s = some t → (contains t v = true ↔ Scalar.Sat s' (env.val c))
  lists : ∀ c, ∀ f ∈ ds, f.id ∈ cover c → ∀ v env, (v, env) ∈ f.live stable → ∀ s t,
    X.labels c s = some t → (contains t v = true ↔ Scalar.LSat s (env.list c))
  /-- an address in an index is that of a row that the fragment, if it is still there, has or had -/
  inside : stable = false → ∀ c t, ((∃ s, X.search c s = some t) ∨ ∃ s, X.labels c s = some t) → ∀ v, v < 2 ^ 64 →
    contains t v = true → ∀ f ∈ ds, f.id = fragmentId v → rowOffset v < f.rows.length

theorem mem_covered {cover : Nat → List Nat} {q : IxExpr V} {x : Nat} (h : x ∈ covered cover q) :
    ∀ c ∈ IxExpr.cols q, x ∈ cover c := by
  induction q with
  | query c s => intro c' hc; simp only [IxExpr.cols, List.mem_singleton] at hc; subst hc; exact h
  | labels c s => intro c' hc; simp only [IxExpr.cols, List.mem_singleton] at hc; subst hc; exact h
  | not e ih => exact ih h
  | and l r ihl ihr =>
    simp only [covered, List.mem_filter, List.contains_iff_mem] at h
    intro c hc
    rcases List.mem_append.mp hc with hc' | hc'
    · exact ihl h.1 c hc'
    · exact ihr h.2 c hc'
  | or l r ihl ihr =>
    simp only [covered, List.mem_filter, List.contains_iff_mem] at h
    intro c hc
    rcases List.mem_append.mp hc with hc' | hc'
    · exact ihl h.1 c hc'
    · exact ihr h.2 c hc'

variable [LinOrd V] [DecidableEq V]

/-- What the two lists of an index query's mask are. -/
theorem evaluate_tidy {stable : Bool} {ds : List (Frag V)} {cover : Nat → List Nat} {X : Indices V}
    (hX : IndicesOK stable ds cover X) (q : IxExpr V) {m : Mask} (hm : evaluate X q = some m) :
    (∀ a, m.allow = some a → Tidy a) ∧ (∀ b, m.block = some b → Tidy b) ∧
    (stable = false → ∀ a, m.allow = some a → ∀ v, v < 2 ^ 64 → contains a v = true → ∀ f ∈ ds,
      f.id = fragmentId v → rowOffset v < f.rows.length) := by
  have h1 := evaluate_all Tidy (fun _ _ => tidy_and) (fun _ _ => tidy_or) q (fun c _ => hX.tidy c)
    (fun c _ => hX.tidyLabels c) hm
  refine ⟨h1.1, h1.2, ?_⟩
  intro hs
  have h2 := evaluate_all (fun t => Tidy t ∧ ∀ v, v < 2 ^ 64 → contains t v = true → ∀ f ∈ ds, f.id = fragmentId v →
      rowOffset v < f.rows.length) (by
        rintro a b ⟨ha, ha'⟩ ⟨hb, hb'⟩
        refine ⟨tidy_and ha hb, fun v hv hc => ?_⟩
        rw [Scalar.contains_and ha.plain] at hc
        exact ha' v hv hc.1) (by
        rintro a b ⟨ha, ha'⟩ ⟨hb, hb'⟩
        refine ⟨tidy_or ha hb, fun v hv hc => ?_⟩
        rw [Scalar.contains_or hb.plain] at hc
        rcases hc with hc | hc
        · exact ha' v hv hc
        · exact hb' v hv hc) q
      (fun c _ s t h => ⟨hX.tidy c s t h, hX.inside hs c t (Or.inl ⟨s, h⟩)⟩)
      (fun c _ s t h => ⟨hX.tidyLabels c s t h, hX.inside hs c t (Or.inr ⟨s, h⟩)⟩) hm
  exact fun a ha => (h2.1 a ha).2

/-- What a scan through the indices returns, before refinement: rows of covered fragments on which the index query
holds, and rows of the other fragments on which the filter made from the query is true. -/
theorem indexedScan_perm {stable : Bool} {ds req : List (Frag V)} {cover : Nat → List Nat} {X : Indices V}
    (h : DsOK stable ds) (hf : ∀ f ∈ req, f ∈ ds) (hd : (req.map (·.id)).Nodup) (hX : IndicesOK stable ds cover X)
    (s : Sched V) (q : IxExpr V)
    (hp : stable = true → s.arrive.Perm (req.filter (fun f => (covered cover q).contains f.id)))
    (ho : stable = false → Arrival (ds.map Frag.pf)
      ((req.filter (fun f => (covered cover q).contains f.id)).map (·.id)) s.order)
    (hs : Reliable q) (ofBool : Bool → V) (p : Nat × Env V → Bool)
    (hrel : ∀ f ∈ req, f.id ∈ covered cover q → ∀ r ∈ f.live stable, Meaning q ∧ (p r = true ↔ Holds r.2 q))
    (hmis : ∀ f ∈ req, f.id ∉ covered cover q → ∀ r ∈ f.live stable,
      (p r = true ↔ (toExpr q).eval ofBool r.2 = some true)) :
    (∀ out, indexedScan ofBool stable ds req cover X s q = some out →
      out.Perm ((req.flatMap (Frag.live stable)).filter p)) ∧
    (∀ m, evaluate X q = some m → (stable = false ∨ m.allow ≠ none ∨ m.block = none ∨ (∀ b, m.block = some b → ∀ v,
        v < 2 ^ 64 → contains b v = true →
        v ∈ (req.filter (fun f => (covered cover q).contains f.id)).flatMap (Frag.keys stable))) →
      indexedScan ofBool stable ds req cover X s q ≠ none) := by
  have hf' : ∀ f ∈ req.filter (fun f => (covered cover q).contains f.id), f ∈ ds :=
    fun f hm => hf f (List.mem_filter.mp hm).1
  have hd' : ((req.filter (fun f => (covered cover q).contains f.id)).map (·.id)).Nodup :=
    (List.filter_sublist.map Frag.id).nodup hd
  have key : ∀ m, evaluate X q = some m → ∀ ids,
      materialize stable ds (req.filter (fun f => (covered cover q).contains f.id)) s.arrive s.order X q = some ids →
      ∃ rows, takeRows stable ds ids = some rows ∧
        (rows ++ keep ofBool (toExpr q) ((req.filter (fun f => !(covered cover q).contains f.id)).flatMap
          (Frag.live stable))).Perm ((req.flatMap (Frag.live stable)).filter p) := by
    intro m hm ids he
    obtain ⟨t1, t2, t3⟩ := evaluate_tidy hX q hm
    obtain ⟨n1, n2⟩ := (materialize_spec h hf' hd' hp s.order ho hm t1 t2
      (fun e a ha v hv hc f hfm => t3 e a ha v hv hc f (hf' f hfm))).1 ids he
    obtain ⟨rows, r1, r2⟩ := taken_perm h hf' hd' ids n1 m n2
    refine ⟨rows, r1, ?_⟩
    obtain ⟨sh, hsh⟩ := Option.ne_none_iff_exists'.1 hs
    have e1 : ((req.filter (fun f => (covered cover q).contains f.id)).flatMap (Frag.live stable)).filter
        (fun r => selected m r.1) =
        ((req.filter (fun f => (covered cover q).contains f.id)).flatMap (Frag.live stable)).filter p := by
      apply List.filter_congr
      rintro ⟨v, env⟩ hr
      obtain ⟨f, hfm, hr⟩ := List.mem_flatMap.mp hr
      obtain ⟨hfr, hc⟩ := List.mem_filter.mp hfm
      have hc : f.id ∈ covered cover q := by simpa using hc
      have hat : IndexAt X q.cols v env := by
        refine ⟨fun c hcc sq sq' t h1 h2 => ?_, fun c hcc sq t h1 => ?_⟩
        · exact ⟨(hX.tidy c _ _ h2).plain, hX.scalar c f (hf f hfr) (mem_covered hc c hcc) v env hr sq sq' t h1 h2⟩
        · exact ⟨(hX.tidyLabels c _ _ h1).plain, hX.lists c f (hf f hfr) (mem_covered hc c hcc) v env hr sq t h1⟩
      obtain ⟨hq, hh⟩ := hrel f hfr hc _ hr
      have := (evaluate_at q hat hq hsh hm).2.trans hh.symm
      exact Bool.eq_iff_iff.mpr this
    have e2 : keep ofBool (toExpr q) ((req.filter (fun f => !(covered cover q).contains f.id)).flatMap
          (Frag.live stable)) =
        ((req.filter (fun f => !(covered cover q).contains f.id)).flatMap (Frag.live stable)).filter p := by
      apply List.filter_congr
      intro r hr
      obtain ⟨f, hfm, hr⟩ := List.mem_flatMap.mp hr
      obtain ⟨hfr, hc⟩ := List.mem_filter.mp hfm
      have hc : f.id ∉ covered cover q := by simpa using hc
      rw [Bool.eq_iff_iff, hmis f hfr hc r hr]
      simp
    rw [e2]
    rw [e1] at r2
    refine (r2.append_right _).trans ?_
    rw [← List.filter_append, ← List.flatMap_append]
    exact ((filter_split_perm req _).flatMap_right _).filter _
  unfold indexedScan
  simp only
  refine ⟨?_, ?_⟩
  · intro out he
    rw [Option.map_eq_some_iff] at he
    obtain ⟨rows, he, rfl⟩ := he
    obtain ⟨ids, hmat, htake⟩ := Option.bind_eq_some_iff.mp he
    have hev : ∃ m, evaluate X q = some m := by
      unfold materialize at hmat
      obtain ⟨m, h1, _⟩ := Option.bind_eq_some_iff.mp hmat
      exact ⟨m, h1⟩
    obtain ⟨m, hm⟩ := hev
    obtain ⟨rows', k1, k2⟩ := key m hm ids hmat
    rw [htake] at k1
    cases k1
    exact k2
  · intro m hm hc
    obtain ⟨t1, t2, t3⟩ := evaluate_tidy hX q hm
    have := (materialize_spec h hf' hd' hp s.order ho hm t1 t2
      (fun e a ha v hv hc f hfm => t3 e a ha v hv hc f (hf' f hfm))).2 hc
    obtain ⟨ids, hids⟩ := Option.ne_none_iff_exists'.1 this
    obtain ⟨rows, k1, _⟩ := key m hm ids hids
    rw [hids]
    simp [k1]

end Verif.Iscan
