import Verif.Evolve.LemmasRun
/-!
# What is accepted
-/
namespace Verif.Evolve

/-! ### Fragments have rows -/

def Live (d : Ds) : Prop := ∀ fr ∈ d.frags, alive fr.phys fr.del ≠ []

theorem cut_ne : ∀ (sizes : List Nat) (off n : Nat), ∀ rows ∈ cut sizes off n, rows ≠ []
  | [], off, n, rows, h => by
    unfold cut at h
    split at h
    · cases h
    · rename_i hn
      simp only [List.mem_singleton] at h
      subst h
      intro c
      exact hn (by simpa using congrArg List.length c)
  | k :: ks, off, n, rows, h => by
    unfold cut at h
    simp only at h
    split at h
    · exact cut_ne ks _ _ rows h
    · rename_i hm
      rcases List.mem_cons.1 h with rfl | h
      · intro c
        exact hm (by simpa using congrArg List.length c)
      · exact cut_ne ks _ _ rows h

theorem mapM_mem {α β : Type} {f : α → Option β} : ∀ {l : List α} {r : List β}, l.mapM f = some r → ∀ b ∈ r, ∃ a ∈ l, f a = some b
  | [], r, h, b, hb => by
    simp only [List.mapM_nil, Option.pure_def, Option.some.injEq] at h
    subst h
    cases hb
  | a :: l, r, h, b, hb => by
    rw [List.mapM_cons] at h
    cases e : f a with
    | none => rw [e] at h; cases h
    | some y =>
      rw [e] at h
      cases e2 : l.mapM f with
      | none => rw [e2] at h; cases h
      | some r' =>
        rw [e2] at h
        simp only [Option.pure_def, Option.bind_eq_bind, Option.bind_some, Option.some.injEq] at h
        subst h
        rcases List.mem_cons.1 hb with rfl | hb
        · exact ⟨a, by simp, e⟩
        · obtain ⟨x, hx, hfx⟩ := mapM_mem e2 b hb
          exact ⟨x, by simp [hx], hfx⟩

theorem writeFrags_live {lg : Bool} {s : Tr Attr} {b : Data} {sizes : List Nat} {frags : List Frag} (h : writeFrags lg s b sizes = some frags) :
    ∀ fr ∈ frags, alive fr.phys fr.del ≠ [] := by
  intro fr hfr
  obtain ⟨rows, hr, hw⟩ := mapM_mem h fr hfr
  cases e : writeFile lg s (b.pick rows) with
  | none => rw [e] at hw; cases hw
  | some f =>
    rw [e] at hw
    simp only [Option.map_some, Option.some.injEq] at hw
    subst hw
    simp only [alive_nil]
    intro c
    have := congrArg List.length c
    simp only [List.length_range, List.length_nil] at this
    exact cut_ne _ _ _ rows hr (List.eq_nil_of_length_eq_zero this)

theorem updateFrag_same {lg : Bool} {s reads w : Tr Attr} {f : Data → Option Data} {fr fr' : Frag} (h : updateFrag lg s reads w f fr = some fr') :
    fr'.phys = fr.phys ∧ fr'.del = fr.del := by
  unfold updateFrag at h
  split at h
  · cases h
  split at h
  · cases h
  split at h
  · split at h
    · cases h
    · rename_i rb _
      cases e : writeFile lg w rb with
      | none => rw [e] at h; cases h
      | some file =>
        rw [e] at h
        simp only [Option.map_some, Option.some.injEq] at h
        subst h
        exact ⟨rfl, rfl⟩
  · cases h

theorem streamFrags_same {lg : Bool} {s w : Tr Attr} {b : Data} : ∀ {frags : List Frag} {bs : List (List Nat)} {r}, streamFrags lg s w b frags bs = some r →
    ∀ fr' ∈ r.1, ∃ fr ∈ frags, fr'.phys = fr.phys ∧ fr'.del = fr.del
  | [], bs, r, h, fr', hm => by
    simp only [streamFrags, Option.some.injEq] at h
    subst h
    cases hm
  | fr :: frags, bs, r, h, fr', hm => by
    unfold streamFrags at h
    split at h
    · cases h
    split at h
    · cases h
    · rename_i rows bs' _ _ fr1 e1
      cases e2 : streamFrags lg s w b frags bs' with
      | none => rw [e2] at h; cases h
      | some r' =>
        rw [e2] at h
        simp only [Option.map_some, Option.some.injEq] at h
        subst h
        rcases List.mem_cons.1 hm with rfl | hm
        · exact ⟨fr, by simp, updateFrag_same e1⟩
        · obtain ⟨x, hx, he⟩ := streamFrags_same e2 fr' hm
          exact ⟨x, by simp [hx], he⟩

theorem live_of {frags frags' : List Frag} (h : ∀ fr ∈ frags, alive fr.phys fr.del ≠ []) (hs : ∀ fr' ∈ frags', ∃ fr ∈ frags, fr'.phys = fr.phys ∧ fr'.del = fr.del) :
    ∀ fr ∈ frags', alive fr.phys fr.del ≠ [] := by
  intro fr hfr
  obtain ⟨x, hx, e1, e2⟩ := hs fr hfr
  rw [e1, e2]
  exact h x hx

theorem deleteFrags_live (dead : Nat → Bool) : ∀ (frags : List Frag) (off : Nat), ∀ fr ∈ deleteFrags dead off frags, alive fr.phys fr.del ≠ []
  | [], _, _, h => by cases h
  | x :: frags, off, fr, h => by
    unfold deleteFrags at h
    rcases List.mem_append.1 h with h | h
    · unfold deleteFrag at h
      simp only at h
      split at h
      · cases h
      · rename_i hc
        simp only [Option.toList_some, List.mem_singleton] at h
        subst h
        simpa using hc
    · exact deleteFrags_live dead frags _ fr h

theorem stepDs_live {cs : Casts} {past : List Ds} {d d' : Ds} {op : Op} (hl : Live d) (hp : ∀ e ∈ past, Live e) (h : stepDs cs past d op = some d') : Live d' := by
  cases op with
  | create lg b sizes =>
    simp only [stepDs, create] at h
    split at h
    · cases e : writeFrags lg (setFieldId (b.cols.map Col.attr) (-1)) b sizes with
      | none => rw [e] at h; cases h
      | some frags =>
        rw [e] at h
        simp only [Option.map_some, Option.some.injEq] at h
        subst h
        exact writeFrags_live e
    · cases h
  | append b sizes =>
    simp only [stepDs, append] at h
    split at h
    · split at h
      · cases h
      · rename_i w _
        cases e : writeFrags d.legacy w b sizes with
        | none => rw [e] at h; cases h
        | some frags =>
          rw [e] at h
          simp only [Option.map_some, Option.some.injEq] at h
          subst h
          intro fr hfr
          rcases List.mem_append.1 hfr with hfr | hfr
          · exact hl fr hfr
          · exact writeFrags_live e fr hfr
    · cases h
  | addUdf reads out =>
    simp only [stepDs, addUdf] at h
    split at h
    · split at h
      · rename_i p w _ _
        cases e : d.frags.mapM (updateFrag d.legacy d.schema p w (fun b => some ⟨b.n, outCols out b⟩)) with
        | none => rw [e] at h; cases h
        | some frags =>
          rw [e] at h
          simp only [Option.map_some, Option.some.injEq] at h
          subst h
          refine live_of hl ?_
          intro fr' hm
          obtain ⟨fr, hfr, e1⟩ := mapM_mem e fr' hm
          exact ⟨fr, hfr, updateFrag_same e1⟩
      · cases h
    · cases h
  | addNulls new =>
    simp only [stepDs, addNulls] at h
    split at h
    · simp only [Option.some.injEq] at h
      subst h
      exact hl
    · cases h
  | addStream b sizes =>
    simp only [stepDs, addStream] at h
    split at h
    · split at h
      · cases h
      · rename_i w _
        cases e : streamFrags d.legacy d.schema w b d.frags (cut sizes 0 b.n) with
        | none => rw [e] at h; cases h
        | some r =>
          obtain ⟨frags, rest⟩ := r
          rw [e] at h
          cases rest with
          | cons x y => cases h
          | nil =>
            simp only [Option.some.injEq] at h
            subst h
            exact live_of hl (streamFrags_same e)
    · cases h
  | alter alts =>
    simp only [stepDs, alter] at h
    split at h
    · cases h
    · rename_i st _
      split at h
      · split at h
        · simp only [Option.some.injEq] at h
          subst h
          refine live_of hl ?_
          intro fr' hm
          obtain ⟨fr, hfr, rfl⟩ := List.mem_map.1 hm
          exact ⟨fr, hfr, rfl, rfl⟩
        · split at h
          · cases h
          · rename_i casts _ p _
            cases e : d.frags.mapM (updateFrag d.legacy d.schema p (projectByIds (st.casts.map (fun c => c.2.2.id)) true st.schema)
                (fun b => (castCols cs st.casts b.cols).map (fun c => ⟨b.n, c⟩))) with
            | none => rw [e] at h; cases h
            | some frags =>
              rw [e] at h
              simp only [Option.map_some, Option.some.injEq] at h
              subst h
              refine live_of hl ?_
              intro fr' hm
              obtain ⟨fr1, hfr1, rfl⟩ := List.mem_map.1 hm
              obtain ⟨fr, hfr, e1⟩ := mapM_mem e fr1 hfr1
              have hsame := updateFrag_same e1
              exact ⟨fr, hfr, hsame.1, hsame.2⟩
      · cases h
  | drop paths =>
    simp only [stepDs, drop] at h
    split at h
    · split at h
      · cases h
      · split at h
        · cases h
        · simp only [Option.some.injEq] at h
          subst h
          refine live_of hl ?_
          intro fr' hm
          obtain ⟨fr, hfr, rfl⟩ := List.mem_map.1 hm
          exact ⟨fr, hfr, rfl, rfl⟩
    · cases h
  | delete dead =>
    simp only [stepDs, Option.some.injEq] at h
    subst h
    exact deleteFrags_live dead _ _
  | compact lo len sizes =>
    simp only [stepDs, compact] at h
    split at h
    · cases h
    · rename_i b _
      cases e : writeFrags d.legacy d.schema b sizes with
      | none => rw [e] at h; cases h
      | some frags =>
        rw [e] at h
        simp only [Option.map_some, Option.some.injEq] at h
        subst h
        intro fr hfr
        rcases List.mem_append.1 hfr with hfr | hfr
        · rcases List.mem_append.1 hfr with hfr | hfr
          · exact hl fr (List.mem_of_mem_take hfr)
          · exact writeFrags_live e fr hfr
        · exact hl fr (List.mem_of_mem_drop (List.mem_of_mem_drop hfr))
  | restore k =>
    simp only [stepDs] at h
    exact hp _ (List.mem_of_getElem? h)

theorem run_live {cs : Casts} : ∀ {ops : List Op} {s : State}, Live s.cur → (∀ e ∈ s.past, Live e) →
    Live (run cs s ops).1.cur ∧ ∀ e ∈ (run cs s ops).1.past, Live e
  | [], s, hl, hp => ⟨hl, hp⟩
  | op :: ops, s, hl, hp => by
    unfold run
    cases e : step cs s op with
    | none => exact run_live hl hp
    | some s' =>
      simp only
      unfold step at e
      cases e1 : stepDs cs s.past s.cur op with
      | none => rw [e1] at e; cases e
      | some d =>
        rw [e1] at e
        simp only [Option.map_some, Option.some.injEq] at e
        subst e
        refine run_live (s := ⟨d, s.past ++ [s.cur]⟩) (stepDs_live hl hp e1) ?_
        intro x hx
        rcases List.mem_append.1 hx with hx | hx
        · exact hp x hx
        · simp only [List.mem_singleton] at hx
          subst hx
          exact hl

/-! ### Writing -/

theorem validate_ok {s : Tr Attr} (h1 : (ids s).Nodup) (h2 : ∀ i ∈ ids s, 0 ≤ i) (h3 : Distinct Attr.name s) : validate s = true := by
  unfold validate
  rw [Bool.and_eq_true, Bool.and_eq_true]
  refine ⟨⟨decide_eq_true (distinct_names h3), ?_⟩, decide_eq_true h1⟩
  rw [List.all_eq_true]
  intro i hi
  exact decide_eq_true (h2 i hi)

theorem writeFile_some {lg : Bool} {Z : Tr (Attr × Col)} {b : Data} (hb : b.cols = Z.map Prod.snd)
    (hz : ∀ z ∈ Z.roots, colByName z.1.1.name b.cols = some (z.1.2, z.2.map Prod.snd)) (hv : validate (Z.map Prod.fst) = true) :
    (writeFile lg (Z.map Prod.fst) b).isSome ↔ ∀ x ∈ strictZ Z, nullOk x.1.nullable x.2.vals = true := by
  rw [← verifyNulls_zip, ← hb]
  unfold writeFile
  rw [storeTop_zip hz, hv, Bool.true_and]
  split
  · rename_i h; simp [h]
  · rename_i h; simp [h]

theorem strictZ_pick {rows : List Nat} {Z : Tr (Attr × Col)} : strictZ (pickZ rows Z) = (strictZ Z).map (fun x => (x.1, pickC rows x.2)) := strictZ_map _ _

theorem isSome_mapM {α β : Type} {f : α → Option β} {l : List α} : (l.mapM f).isSome ↔ ∀ x ∈ l, (f x).isSome := by
  induction l with
  | nil => simp
  | cons a l ih =>
    rw [List.mapM_cons]
    cases e : f a with
    | none => simp [e]
    | some y =>
      cases e2 : l.mapM f with
      | none =>
        rw [e2] at ih
        simp only [Option.isSome_none, Bool.false_eq_true, false_iff] at ih
        simp [e2, e]
        simpa using ih
      | some r =>
        rw [e2] at ih
        simp [e2, e]
        simpa using ih

theorem nullOk_flat {b : Bool} {ls : List (List Nat)} {v : List Cell} : nullOk b (pickVals ls.flatten v) = true ↔ ∀ l ∈ ls, nullOk b (pickVals l v) = true := by
  unfold nullOk
  cases b with
  | true => simp
  | false =>
    simp only [Bool.false_or, pickVals, List.all_map, List.all_eq_true, List.mem_flatten, Function.comp]
    constructor
    · intro h l hl x hx
      exact h x ⟨l, hl, hx⟩
    · rintro h x ⟨l, hl, hx⟩
      exact h l hl x hx

theorem writeFrags_some {lg : Bool} {Z : Tr (Attr × Col)} {b : Data} {sizes : List Nat} (hb : b.cols = Z.map Prod.snd)
    (hx : ∀ x ∈ Z.flat, x.1.name = x.2.name ∧ x.1.kind = x.2.kind) (hlen : ∀ x ∈ Z.flat, (x.2.kind = .struct → x.2.vals = []) ∧ (x.2.kind ≠ .struct → x.2.vals.length = b.n))
    (hd : Distinct Attr.name (Z.map Prod.fst)) (hv : validate (Z.map Prod.fst) = true) :
    (writeFrags lg (Z.map Prod.fst) b sizes).isSome ↔ ∀ x ∈ strictZ Z, nullOk x.1.nullable x.2.vals = true := by
  have hz : ∀ z ∈ Z.roots, colByName z.1.1.name b.cols = some (z.1.2, z.2.map Prod.snd) := by
    intro z hm
    rw [hb]
    refine colByName_zip (fun y hy => (hx y.1 (Tr.root_mem_flat hy)).1) ?_ hm
    have := distinct_names hd
    rw [Tr.roots_map, List.map_map] at this
    exact this
  unfold writeFrags
  rw [isSome_mapM]
  have h1 : ∀ rows, ((writeFile lg (Z.map Prod.fst) (b.pick rows)).map (fun f => (⟨[f], rows.length, []⟩ : Frag))).isSome ↔
      ∀ x ∈ strictZ Z, nullOk x.1.nullable (pickC rows x.2).vals = true := by
    intro rows
    rw [Option.isSome_map, ← pickZ_fst rows, writeFile_some (b := b.pick rows) (by rw [pickZ_snd, Data.pick, hb]) (pickZ_roots hz) (by rw [pickZ_fst]; exact hv),
      strictZ_pick]
    simp only [List.mem_map, forall_exists_index, and_imp]
    constructor
    · intro h x hxm
      exact h _ x hxm rfl
    · rintro h x y hy rfl
      exact h y hy
  have h2 : ∀ x ∈ strictZ Z, (nullOk x.1.nullable x.2.vals = true ↔ ∀ rows ∈ cut sizes 0 b.n, nullOk x.1.nullable (pickC rows x.2).vals = true) := by
    intro x hxm
    have hl := hlen x (strictZ_flat hxm)
    by_cases hk : x.2.kind = .struct
    · simp [pickC, hk, hl.1 hk, nullOk]
    · simp only [pickC, if_neg hk]
      rw [← nullOk_flat, cut_flatten, ← List.range_eq_range', pickVals_range (hl.2 hk)]
  constructor
  · intro h x hxm
    exact (h2 x hxm).2 (fun rows hr => (h1 rows).1 (h rows hr) x hxm)
  · intro h rows hr
    exact (h1 rows).2 (fun x hxm => (h2 x hxm).1 (h x hxm) rows hr)

/-! ### Creating and compacting -/

theorem colsOk_nulls {n : Nat} : ∀ {Z : Tr (Attr × Col)}, ColsOk n false (Z.map Prod.snd) → (∀ x ∈ Z.flat, x.1.kind = x.2.kind ∧ x.1.nullable = x.2.nullable) →
    ∀ x ∈ strictZ Z, nullOk x.1.nullable x.2.vals = true
  | .nil, _, _, _, h => by cases h
  | .cons y k r, h, hx, x, hm => by
    simp only [Tr.map] at h
    obtain ⟨_, h2, h3, h4⟩ := h
    simp only [strictZ, List.mem_cons, List.mem_append] at hm
    have hy := hx y (by simp [Tr.flat])
    rcases hm with rfl | hm | hm
    · rw [hy.2]
      exact h2 rfl
    · split at hm
      · rename_i hk
        rw [hy.1] at hk
        rw [hk] at h3
        exact colsOk_nulls h3 (fun x hx' => hx x (by simp [Tr.flat, hx'])) x hm
      · cases hm
    · exact colsOk_nulls h4 (fun x hx' => hx x (by simp [Tr.flat, hx'])) x hm

theorem create_some {lg : Bool} {b : Data} {sizes : List Nat} (hb : DataOk b) (hd : Distinct Col.name b.cols) : (create lg b sizes).isSome := by
  unfold create
  simp only
  unfold setFieldId
  generalize hnext : max (maxId (ids (b.cols.map Col.attr))) (-1) + 1 = next
  have h0 : 0 ≤ next := by
    have := maxId_ge (ids (b.cols.map Col.attr))
    omega
  obtain ⟨Z, m, e, h1, h2, h3, h4, h5⟩ := setIds_zip Col.attr (fun b => by simp [Col.attr]) b.cols next
  rw [e]
  simp only
  have hx : ∀ x ∈ Z.flat, x.1.name = (Col.attr x.2).name ∧ x.1.kind = (Col.attr x.2).kind := by
    intro x hx
    have := h2 x hx
    constructor
    · rw [this]
    · rw [this]
  obtain ⟨_, hz2⟩ := zip_shape hx
  rw [← h1] at hz2
  have hdist := hz2.2 (distinct_attr hd)
  have hv := validate_ok h5 (fun i hi => by have := h4 i hi; omega) hdist
  rw [hv, if_pos rfl, Option.isSome_map]
  have hflat := colsOk_flat hb.1
  have hok := hb.1
  rw [h1] at hok
  refine (writeFrags_some h1 hx ?_ hdist hv).2 ?_
  · intro x hxm
    refine hflat _ ?_
    rw [h1, Tr.flat_map]
    exact List.mem_map_of_mem hxm
  · refine colsOk_nulls hok ?_
    intro x hxm
    refine ⟨(hx x hxm).2, ?_⟩
    rw [h2 x hxm]
    rfl

theorem absVals_nullOk {d : Ds} (hi : Inv d) {frags : List Frag} (hsub : ∀ fr ∈ frags, fr ∈ d.frags) {a : Attr} (ha : a ∈ strict d.schema) :
    nullOk a.nullable (absCol frags a).vals = true := by
  unfold absCol Attr.col
  by_cases hk : a.kind = .struct
  · simp [hk, nullOk]
  simp only [hk, if_false]
  have h : ∀ fr ∈ frags, nullOk a.nullable (pickVals (alive fr.phys fr.del) (fr.colVals a.id)) = true := by
    intro fr hfr
    have := L_nullOk (hi.frags fr (hsub fr hfr)) ha (strict_flat ha)
    unfold L Attr.col at this
    simpa [hk] using this
  unfold nullOk at h ⊢
  cases hn : a.nullable with
  | true => simp
  | false =>
    simp only [hn, Bool.false_or, List.all_eq_true] at h ⊢
    intro x hx
    obtain ⟨fr, hfr, hx⟩ := List.mem_flatMap.1 hx
    exact h fr hfr x hx

theorem compact_some {d : Ds} {lo len : Nat} {sizes : List Nat} (hi : Inv d) : (compact d lo len sizes).isSome := by
  unfold compact
  have hsub : ∀ fr ∈ (d.frags.drop lo).take len, fr ∈ d.frags := fun fr hfr => List.mem_of_mem_drop (List.mem_of_mem_take hfr)
  have hs := hi.schema
  rw [readFrags_ok hs (Sub.refl hs) hs.distinct (fun fr hfr => hi.frags fr (hsub fr hfr))]
  simp only [Option.isSome_map]
  generalize (d.frags.drop lo).take len = frags at hsub
  have hfst : (d.schema.map (fun a => (a, absCol frags a))).map Prod.fst = d.schema := by
    rw [Tr.map_map]
    exact Tr.map_id' (fun _ _ => rfl)
  have hflat : ∀ x ∈ (d.schema.map (fun a => (a, absCol frags a))).flat, ∃ a ∈ d.schema.flat, x = (a, absCol frags a) := by
    intro x hx
    rw [Tr.flat_map] at hx
    obtain ⟨a, ha, rfl⟩ := List.mem_map.1 hx
    exact ⟨a, ha, rfl⟩
  have := (writeFrags_some (lg := d.legacy) (Z := d.schema.map (fun a => (a, absCol frags a))) (b := ⟨absN frags, d.schema.map (absCol frags)⟩) (sizes := sizes)
    (by rw [Tr.map_map]) (by intro x hx; obtain ⟨a, _, rfl⟩ := hflat x hx; exact ⟨rfl, rfl⟩)
    (by
      intro x hx
      obtain ⟨a, _, rfl⟩ := hflat x hx
      simp only [absCol, Attr.col]
      refine ⟨fun hk => by rw [if_pos hk], fun hk => by rw [if_neg hk, absVals_length]⟩)
    (by rw [hfst]; exact hs.distinct) (by rw [hfst]; exact validate_ok hs.nodup hs.nonneg hs.distinct)).2 (by
      intro x hx
      obtain ⟨a, ha, rfl⟩ := hflat x (strictZ_flat hx)
      have : a ∈ strict d.schema := by
        rw [← hfst, ← strictZ_fst]
        exact List.mem_map.2 ⟨_, hx, rfl⟩
      exact absVals_nullOk hi hsub this)
  rw [hfst] at this
  exact this

end Verif.Evolve
