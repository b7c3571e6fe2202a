import Verif.Expr.Lemmas

/-! Bitmap and label list indices answer a filter's queries exactly. -/
namespace Verif.Expr
open Verif
open Verif.RowSet (TreeMap Mask)
open Verif.Scalar (LinOrd Bd LQuery Plain)

/-- Selections that list rows. -/
private def Parts (sels : List RowSet.Sel) : Prop := ∀ s ∈ sels, ∃ b, s = .part b ∧ ∀ o ∈ b, o < 2 ^ 32

private theorem parts_union (sels : List RowSet.Sel) (h : Parts sels) :
    ∃ b, RowSet.unionSels sels = .part b ∧ ∀ o ∈ b, o < 2 ^ 32 := by
  unfold RowSet.unionSels
  have hf : ¬ sels.contains .full = true := by
    intro hc
    obtain ⟨b, hb, _⟩ := h .full (by simpa using hc)
    cases hb
  rw [if_neg hf]
  refine ⟨_, rfl, ?_⟩
  have key : ∀ (acc : Bm), (∀ o ∈ acc, o < 2 ^ 32) → ∀ o ∈ sels.foldl RowSet.accSel acc, o < 2 ^ 32 := by
    clear hf
    induction sels with
    | nil => intro acc ha; exact ha
    | cons s sels ih =>
      intro acc ha
      rw [List.foldl_cons]
      apply ih (fun x hx => h x (List.mem_cons_of_mem _ hx))
      obtain ⟨b, rfl, hb⟩ := h s (List.mem_cons_self ..)
      intro o ho
      simp only [RowSet.accSel] at ho
      rcases (Bm.mem_union _ _ _).1 ho with ho | ho
      · exact ha o ho
      · exact hb o ho
  exact key [] (by simp)

private def Coll (c : SMap (List RowSet.Sel)) : Prop := c.Sorted ∧ ∀ e ∈ c, e.1 < 2 ^ 32 ∧ Parts e.2

private theorem coll_step {c : SMap (List RowSet.Sel)} (h : Coll c) (e : Nat × RowSet.Sel) (h1 : e.1 < 2 ^ 32)
    (h2 : ∃ b, e.2 = .part b ∧ ∀ o ∈ b, o < 2 ^ 32) : Coll (RowSet.collectStep c e) := by
  refine ⟨SMap.sorted_insert _ _ _ h.1, ?_⟩
  intro x hx
  rcases Scalar.smap_mem_insert hx with rfl | hx
  · refine ⟨h1, ?_⟩
    intro s hs
    rcases List.mem_append.1 hs with hs | hs
    · cases hg : SMap.get e.1 c with
      | none => rw [hg] at hs; cases hs
      | some l =>
        rw [hg] at hs
        exact (h.2 _ (SMap.get_some_mem hg)).2 s hs
    · rw [List.mem_singleton.1 hs]; exact h2
  · exact h.2 x hx

theorem plain_unionAll (maps : List TreeMap) (h : ∀ m ∈ maps, Plain m) : Plain (RowSet.unionAll maps) := by
  have hin : ∀ (m : TreeMap), Plain m → ∀ c, Coll c → Coll (m.foldl RowSet.collectStep c) := by
    intro m hm
    replace hm := hm.2
    induction m with
    | nil => intro c hc; exact hc
    | cons e m ih =>
      intro c hc
      rw [List.foldl_cons]
      exact ih (fun x hx => hm x (List.mem_cons_of_mem _ hx)) _
        (coll_step hc e (hm e (List.mem_cons_self ..)).1 (hm e (List.mem_cons_self ..)).2)
  have hout : ∀ c, Coll c → Coll (maps.foldl (fun acc (m : TreeMap) => m.foldl RowSet.collectStep acc) c) := by
    induction maps with
    | nil => intro c hc; exact hc
    | cons m maps ih =>
      intro c hc
      rw [List.foldl_cons]
      exact ih (fun x hx => h x (List.mem_cons_of_mem _ hx)) _ (hin m (h m (List.mem_cons_self ..)) c hc)
  obtain ⟨h1, h2⟩ := hout [] ⟨SMap.sorted_nil, by simp⟩
  refine ⟨by unfold RowSet.unionAll; exact SMap.sorted_mapVals _ _ h1, ?_⟩
  intro e he
  simp only [RowSet.unionAll, SMap.mapVals, List.mem_map] at he
  obtain ⟨x, hx, rfl⟩ := he
  exact ⟨(h2 x hx).1, parts_union _ (h2 x hx).2⟩

variable {V : Type} [LinOrd V] [DecidableEq V]

theorem plain_bitmapSearch {b : Scalar.Bitmap V} (hp : ∀ e ∈ b.map, Plain e.2) (hn : Plain b.nulls)
    (q : Scalar.Query V) {m : TreeMap} (h : Scalar.bitmapSearch b q = some m) : Plain m := by
  cases q with
  | equals w =>
    cases w with
    | none => cases h; exact hn
    | some x => cases h; exact Scalar.plain_getKey hp x
  | isNull => cases h; exact hn
  | isIn ws =>
    cases h
    have key : ∀ acc, Plain acc → Plain (ws.foldl (Scalar.bitmapIn b) acc) := by
      induction ws with
      | nil => intro acc ha; exact ha
      | cons w ws ih =>
        intro acc ha
        rw [List.foldl_cons]
        apply ih
        cases w with
        | none => exact Scalar.plain_or ha hn
        | some x =>
          simp only [Scalar.bitmapIn]
          cases hg : Scalar.getKey x b.map with
          | none => exact ha
          | some s => exact Scalar.plain_or ha (hp _ (Scalar.getKey_some_mem hg))
    exact key [] Scalar.plain_nil
  | range lo hi =>
    simp only [Scalar.bitmapSearch] at h
    split at h
    · cases h
    · cases h
      apply plain_unionAll
      intro m hm
      obtain ⟨e, he, rfl⟩ := List.mem_map.1 hm
      exact hp e (List.mem_filter.1 he).1

/-- The values of a column. -/
def colRows (T : Table V) (c : Nat) : List (Scalar.Row V) := T.map (fun r => (r.2.val c, r.1))

/-- The lists of a column. -/
def listRows (T : Table V) (c : Nat) : List (Scalar.LRow V) := T.map (fun r => (r.2.list c, r.1))

/-- Bitmap indices on the scalar columns and label list indices on the list columns, all built from the table.  What
they do with a NULL bound is left open (`nul`). -/
def bitmapIndices (shuffle : List (Option V × TreeMap) → List (Option V × TreeMap)) (nul : SQuery V → Option TreeMap)
    (T : Table V) : Indices V where
  search c q := match q.toScalar with
    | some q' => Scalar.bitmapSearch (Scalar.trainBitmap shuffle (colRows T c)) q'
    | none => nul q
  labels c q := Scalar.searchLabels (Scalar.trainBitmap shuffle (Scalar.unnest (listRows T c))) q

theorem ids_colRows {T : Table V} (hT : ∀ r ∈ T, r.1 < 2 ^ 64) (c : Nat) : Scalar.Ids64 (colRows T c) := by
  intro r hr
  obtain ⟨x, hx, rfl⟩ := List.mem_map.1 hr
  exact hT x hx

theorem labels_plain {b : Scalar.Bitmap V} {rows : List (Scalar.Row V)} (h : Scalar.BExact b rows) (q : LQuery V)
    {m : TreeMap} (hm : Scalar.searchLabels b q = some m) : Plain m ∧ Scalar.labelsOf q ≠ [] := by
  have fold : ∀ (op : TreeMap → TreeMap → TreeMap), (∀ a b, Plain a → Plain b → Plain (op a b)) → ∀ ms : List TreeMap,
      (∀ x ∈ ms, Plain x) → ∀ m, Scalar.foldSets op ms = some m → Plain m ∧ ms ≠ [] := by
    intro op hop ms hms m hm
    cases ms with
    | nil => cases hm
    | cons x ms =>
      simp only [Scalar.foldSets, Option.some.injEq] at hm
      subst hm
      refine ⟨?_, by simp⟩
      have hx := hms x (List.mem_cons_self ..)
      replace hms := fun y hy => hms y (List.mem_cons_of_mem x hy)
      induction ms generalizing x with
      | nil => exact hx
      | cons y ms ih =>
        rw [List.foldl_cons]
        exact ih _ (hop _ _ hx (hms y (List.mem_cons_self ..))) (fun z hz => hms z (List.mem_cons_of_mem _ hz))
  cases q with
  | hasAll ls =>
    obtain ⟨ms, h1, h2, h3, _⟩ := Scalar.search_values h ls
    simp only [Scalar.searchLabels, h1, Option.bind_some] at hm
    obtain ⟨g1, g2⟩ := fold _ (fun a b ha hb => Scalar.plain_and ha hb) ms h3 m hm
    refine ⟨g1, ?_⟩
    intro hc
    simp only [Scalar.labelsOf] at hc
    rw [hc] at h2
    exact g2 (List.length_eq_zero_iff.1 h2)
  | hasAny ls =>
    obtain ⟨ms, h1, h2, h3, _⟩ := Scalar.search_values h ls
    simp only [Scalar.searchLabels, h1, Option.bind_some] at hm
    obtain ⟨g1, g2⟩ := fold _ (fun a b ha hb => Scalar.plain_or ha hb) ms h3 m hm
    refine ⟨g1, ?_⟩
    intro hc
    simp only [Scalar.labelsOf] at hc
    rw [hc] at h2
    exact g2 (List.length_eq_zero_iff.1 h2)

theorem bExact_train (shuffle : List (Option V × TreeMap) → List (Option V × TreeMap)) (hs : ∀ l, (shuffle l).Perm l)
    (rows : List (Scalar.Row V)) (hr : Scalar.Ids64 rows) : Scalar.BExact (Scalar.trainBitmap shuffle rows) rows :=
  Scalar.bExact_load (Scalar.stExact_train Scalar.stExact_nil rows hr) shuffle hs

theorem indexOK_bitmaps (shuffle : List (Option V × TreeMap) → List (Option V × TreeMap))
    (hs : ∀ l, (shuffle l).Perm l) (nul : SQuery V → Option TreeMap) (T : Table V) (hT : ∀ r ∈ T, r.1 < 2 ^ 64)
    (hd : (T.map (·.1)).Nodup) : IndexOK (bitmapIndices shuffle nul T) T := by
  constructor
  · intro c q q' m hq hm
    simp only [bitmapIndices, hq] at hm
    have hb := bExact_train shuffle hs _ (ids_colRows hT c)
    refine ⟨plain_bitmapSearch hb.plain hb.plainNulls q' hm, ?_⟩
    have hnp : ¬ (Scalar.Crossed q' ∨ Scalar.Pinched q') := by
      rw [← Scalar.bitmap_panics (Scalar.trainBitmap shuffle (colRows T c)) q', hm]
      simp
    obtain ⟨m', h1, h2⟩ := Scalar.bitmap_exact hb q' ⟨fun h => hnp (Or.inl h), fun h => hnp (Or.inr h)⟩
    rw [hm] at h1; cases h1
    exact h2
  · intro c q m hm
    simp only [bitmapIndices] at hm
    have hr : ∀ r ∈ listRows T c, r.2 < 2 ^ 64 := by
      intro r hr
      obtain ⟨x, hx, rfl⟩ := List.mem_map.1 hr
      exact hT x hx
    have hb := bExact_train shuffle hs _ (Scalar.ids_unnest _ hr)
    obtain ⟨h1, h2⟩ := labels_plain hb q hm
    refine ⟨h1, ?_⟩
    intro i hi
    have hd' : ((listRows T c).map (·.2)).Nodup := by
      have : (listRows T c).map (·.2) = T.map (·.1) := by simp [listRows, List.map_map, Function.comp_def]
      rw [this]; exact hd
    obtain ⟨m', h3, h4⟩ := Scalar.labels_exact hb hd' q h2
    rw [hm] at h3; cases h3
    rw [h4 i hi]
    simp only [listRows, List.mem_map, Prod.mk.injEq]
    constructor
    · rintro ⟨v, ⟨⟨j, env⟩, h5, rfl, rfl⟩, h6⟩
      exact ⟨env, h5, h6⟩
    · rintro ⟨env, h5, h6⟩
      exact ⟨_, ⟨(i, env), h5, rfl, rfl⟩, h6⟩

end Verif.Expr
