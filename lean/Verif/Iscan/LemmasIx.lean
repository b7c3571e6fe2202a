import Verif.Iscan.LemmasRows

/-! Bitmap and label list indices answer exactly for the fragments they cover. -/
namespace Verif.Iscan
open Verif
open Verif.RowSet (TreeMap Mask contains selected newFromParts fragmentId rowOffset)
open Verif.Expr
open Verif.Scalar (LinOrd LQuery)

/-! ### Unions of many sets -/

private def Parts (sels : List RowSet.Sel) : Prop := ∀ s ∈ sels, ∃ b : Bm, s = .part b ∧ b.Sorted ∧ ∀ o ∈ b, o < 2 ^ 32

private theorem parts_union (sels : List RowSet.Sel) (h : Parts sels) :
    ∃ b : Bm, RowSet.unionSels sels = .part b ∧ b.Sorted ∧ ∀ o ∈ b, o < 2 ^ 32 := by
  unfold RowSet.unionSels
  have hf : ¬ sels.contains .full = true := by
    intro hc
    obtain ⟨b, hb, _⟩ := h .full (by simpa using hc)
    cases hb
  rw [if_neg hf]
  refine ⟨_, rfl, ?_⟩
  have key : ∀ (acc : Bm), acc.Sorted → (∀ o ∈ acc, o < 2 ^ 32) →
      (sels.foldl RowSet.accSel acc).Sorted ∧ ∀ o ∈ sels.foldl RowSet.accSel acc, o < 2 ^ 32 := by
    clear hf
    induction sels with
    | nil => intro acc hs ha; exact ⟨hs, ha⟩
    | cons s sels ih =>
      intro acc hs ha
      rw [List.foldl_cons]
      obtain ⟨b, rfl, _, hb⟩ := h s (List.mem_cons_self ..)
      refine ih (fun x hx => h x (List.mem_cons_of_mem _ hx)) _ (Bm.sorted_union _ _ hs) ?_
      intro o ho
      simp only [RowSet.accSel] at ho
      rcases (Bm.mem_union _ _ _).1 ho with ho | ho
      · exact ha o ho
      · exact hb o ho
  exact key [] Bm.sorted_nil (by simp)

private def Coll (c : SMap (List RowSet.Sel)) : Prop := c.Sorted ∧ ∀ e ∈ c, e.1 < 2 ^ 32 ∧ Parts e.2

private theorem coll_step {c : SMap (List RowSet.Sel)} (h : Coll c) (e : Nat × RowSet.Sel) (h1 : e.1 < 2 ^ 32)
    (h2 : ∃ b : Bm, e.2 = .part b ∧ b.Sorted ∧ ∀ o ∈ b, o < 2 ^ 32) : Coll (RowSet.collectStep c e) := by
  refine ⟨SMap.sorted_insert _ _ _ h.1, ?_⟩
  intro x hx
  rcases Scalar.smap_mem_insert hx with rfl | hx
  · refine ⟨h1, ?_⟩
    intro s hs
    rcases List.mem_append.1 hs with hs | hs
    · cases hg : SMap.get e.1 c with
      | none => rw [hg] at hs; cases hs
      | some l =>
        rw [hg] at hs
        exact (h.2 _ (SMap.get_some_mem hg)).2 s hs
    · rw [List.mem_singleton.1 hs]; exact h2
  · exact h.2 x hx

theorem tidy_unionAll (maps : List TreeMap) (h : ∀ m ∈ maps, Tidy m) : Tidy (RowSet.unionAll maps) := by
  have hin : ∀ (m : TreeMap), Tidy m → ∀ c, Coll c → Coll (m.foldl RowSet.collectStep c) := by
    intro m hm
    replace hm := hm.2
    induction m with
    | nil => intro c hc; exact hc
    | cons e m ih =>
      intro c hc
      rw [List.foldl_cons]
      exact ih (fun x hx => hm x (List.mem_cons_of_mem _ hx)) _
        (coll_step hc e (hm e (List.mem_cons_self ..)).1 (hm e (List.mem_cons_self ..)).2)
  have hout : ∀ c, Coll c → Coll (maps.foldl (fun acc (m : TreeMap) => m.foldl RowSet.collectStep acc) c) := by
    induction maps with
    | nil => intro c hc; exact hc
    | cons m maps ih =>
      intro c hc
      rw [List.foldl_cons]
      exact ih (fun x hx => h x (List.mem_cons_of_mem _ hx)) _ (hin m (h m (List.mem_cons_self ..)) c hc)
  obtain ⟨h1, h2⟩ := hout [] ⟨SMap.sorted_nil, by simp⟩
  refine ⟨by unfold RowSet.unionAll; exact SMap.sorted_mapVals _ _ h1, ?_⟩
  intro e he
  simp only [RowSet.unionAll, SMap.mapVals, List.mem_map] at he
  obtain ⟨x, hx, rfl⟩ := he
  exact ⟨(h2 x hx).1, parts_union _ (h2 x hx).2⟩

/-! ### Bitmap indices -/

theorem mem_setKey {K W : Type} [DecidableEq K] {k : K} {w : W} {m : List (K × W)} {e : K × W}
    (h : e ∈ Scalar.setKey k w m) : e = (k, w) ∨ e ∈ m := by
  induction m with
  | nil => simp [Scalar.setKey] at h; exact Or.inl h
  | cons x m ih =>
    simp only [Scalar.setKey] at h
    split at h
    · rcases List.mem_cons.mp h with h | h
      · exact Or.inl h
      · exact Or.inr (List.mem_cons_of_mem _ h)
    · rcases List.mem_cons.mp h with h | h
      · exact Or.inr (by rw [h]; exact List.mem_cons_self)
      · rcases ih h with h | h
        · exact Or.inl h
        · exact Or.inr (List.mem_cons_of_mem _ h)

theorem tidy_getKey {K : Type} [DecidableEq K] {st : List (K × TreeMap)} (h : ∀ e ∈ st, Tidy e.2) (k : K) :
    Tidy ((Scalar.getKey k st).getD []) := by
  cases hg : Scalar.getKey k st with
  | none => exact tidy_nil
  | some m => exact h _ (Scalar.getKey_some_mem hg)

variable {V : Type} [LinOrd V] [DecidableEq V]

theorem tidy_train (rows : List (Scalar.Row V)) (st : List (Option V × TreeMap)) (h : ∀ e ∈ st, Tidy e.2) :
    ∀ e ∈ Scalar.trainState st rows, Tidy e.2 := by
  unfold Scalar.trainState
  induction rows generalizing st with
  | nil => exact h
  | cons r rows ih =>
    rw [List.foldl_cons]
    apply ih
    intro e he
    rcases mem_setKey he with rfl | he
    · exact tidy_insert (tidy_getKey h r.1) r.2
    · exact h e he

theorem tidy_load (es : List (Option V × TreeMap)) (h : ∀ e ∈ es, Tidy e.2) (b : Scalar.Bitmap V)
    (hb : (∀ e ∈ b.map, Tidy e.2) ∧ Tidy b.nulls) :
    (∀ e ∈ (es.foldl Scalar.loadEntry b).map, Tidy e.2) ∧ Tidy (es.foldl Scalar.loadEntry b).nulls := by
  induction es generalizing b with
  | nil => exact hb
  | cons e es ih =>
    rw [List.foldl_cons]
    apply ih (fun x hx => h x (List.mem_cons_of_mem _ hx))
    have he := h e List.mem_cons_self
    unfold Scalar.loadEntry
    cases e.1 with
    | none => exact ⟨hb.1, he⟩
    | some k =>
      refine ⟨fun x hx => ?_, hb.2⟩
      rcases Scalar.mem_insertKey hx with rfl | hx
      · exact he
      · exact hb.1 x hx

theorem tidy_trainBitmap (shuffle : List (Option V × TreeMap) → List (Option V × TreeMap))
    (hs : ∀ l, (shuffle l).Perm l) (rows : List (Scalar.Row V)) :
    (∀ e ∈ (Scalar.trainBitmap shuffle rows).map, Tidy e.2) ∧ Tidy (Scalar.trainBitmap shuffle rows).nulls := by
  unfold Scalar.trainBitmap Scalar.loadBitmap
  apply tidy_load
  · intro e he
    exact tidy_train rows [] (by simp) e ((hs _).mem_iff.mp he)
  · exact ⟨by simp, tidy_nil⟩

theorem tidy_bitmapSearch {b : Scalar.Bitmap V} (hp : ∀ e ∈ b.map, Tidy e.2) (hn : Tidy b.nulls)
    (q : Scalar.Query V) {m : TreeMap} (h : Scalar.bitmapSearch b q = some m) : Tidy m := by
  cases q with
  | equals w =>
    cases w with
    | none => cases h; exact hn
    | some x => cases h; exact tidy_getKey hp x
  | isNull => cases h; exact hn
  | isIn ws =>
    cases h
    have key : ∀ acc, Tidy acc → Tidy (ws.foldl (Scalar.bitmapIn b) acc) := by
      induction ws with
      | nil => intro acc ha; exact ha
      | cons w ws ih =>
        intro acc ha
        rw [List.foldl_cons]
        apply ih
        cases w with
        | none => exact tidy_or ha hn
        | some x =>
          simp only [Scalar.bitmapIn]
          cases hg : Scalar.getKey x b.map with
          | none => exact ha
          | some s => exact tidy_or ha (hp _ (Scalar.getKey_some_mem hg))
    exact key [] tidy_nil
  | range lo hi =>
    simp only [Scalar.bitmapSearch] at h
    split at h
    · cases h
    · cases h
      apply tidy_unionAll
      intro m hm
      obtain ⟨e, he, rfl⟩ := List.mem_map.1 hm
      exact hp e (List.mem_filter.1 he).1

theorem tidy_allSome {b : Scalar.Bitmap V} (hp : ∀ e ∈ b.map, Tidy e.2) (hn : Tidy b.nulls) (ls : List (Option V))
    {ms : List TreeMap} (h : Scalar.searchValues b ls = some ms) : ∀ m ∈ ms, Tidy m := by
  unfold Scalar.searchValues at h
  induction ls generalizing ms with
  | nil => cases h; simp
  | cons w ls ih =>
    rw [List.map_cons] at h
    cases hw : Scalar.bitmapSearch b (.equals w) with
    | none => rw [hw] at h; cases h
    | some x =>
      rw [hw] at h
      simp only [Scalar.allSome, Option.map_eq_some_iff] at h
      obtain ⟨l, h1, rfl⟩ := h
      intro m hm
      rcases List.mem_cons.mp hm with rfl | hm
      · exact tidy_bitmapSearch hp hn _ hw
      · exact ih h1 m hm

theorem tidy_foldSets (op : TreeMap → TreeMap → TreeMap) (hop : ∀ a b, Tidy a → Tidy b → Tidy (op a b))
    (ms : List TreeMap) (hms : ∀ x ∈ ms, Tidy x) {m : TreeMap} (hm : Scalar.foldSets op ms = some m) : Tidy m := by
  cases ms with
  | nil => cases hm
  | cons x ms =>
    simp only [Scalar.foldSets, Option.some.injEq] at hm
    subst hm
    have hx := hms x (List.mem_cons_self ..)
    replace hms := fun y hy => hms y (List.mem_cons_of_mem x hy)
    induction ms generalizing x with
    | nil => exact hx
    | cons y ms ih =>
      rw [List.foldl_cons]
      exact ih _ (hop _ _ hx (hms y (List.mem_cons_self ..))) (fun z hz => hms z (List.mem_cons_of_mem _ hz))

theorem tidy_searchLabels {b : Scalar.Bitmap V} (hp : ∀ e ∈ b.map, Tidy e.2) (hn : Tidy b.nulls) (q : LQuery V)
    {m : TreeMap} (hm : Scalar.searchLabels b q = some m) : Tidy m := by
  cases q with
  | hasAll ls =>
    obtain ⟨ms, h1, h2⟩ := Option.bind_eq_some_iff.mp hm
    exact tidy_foldSets _ (fun _ _ => tidy_and) ms (tidy_allSome hp hn ls h1) h2
  | hasAny ls =>
    obtain ⟨ms, h1, h2⟩ := Option.bind_eq_some_iff.mp hm
    exact tidy_foldSets _ (fun _ _ => tidy_or) ms (tidy_allSome hp hn ls h1) h2

/-! ### One index per column -/

/-- A bitmap (or label list) index on each column, built over the rows `T c` at some time.  A query with a NULL bound
panics here; C92 leaves NULL literals out. -/
def columnIndices (shuffle : List (Option V × TreeMap) → List (Option V × TreeMap)) (T : Nat → Table V) : Indices V where
  search c q := (bitmapIndices shuffle (fun _ => none) (T c)).search c q
  labels c q := (bitmapIndices shuffle (fun _ => none) (T c)).labels c q

/-- The rows that an index was built over: those of the fragments it covers that are live now, and maybe others that
have been deleted since. -/
structure BuiltOver (stable : Bool) (ds : List (Frag V)) (cover : List Nat) (T : Table V) : Prop where
  small : ∀ r ∈ T, r.1 < 2 ^ 64
  ids : (T.map (·.1)).Nodup
  rows : ∀ f ∈ ds, f.id ∈ cover → ∀ r ∈ f.live stable, r ∈ T
  inside : stable = false → ∀ r ∈ T, ∀ f ∈ ds, f.id = fragmentId r.1 → rowOffset r.1 < f.rows.length

theorem indicesOK_columns (stable : Bool) (ds : List (Frag V)) (cover : Nat → List Nat)
    (shuffle : List (Option V × TreeMap) → List (Option V × TreeMap)) (hs : ∀ l, (shuffle l).Perm l)
    (T : Nat → Table V) (hT : ∀ c, BuiltOver stable ds (cover c) (T c)) :
    IndicesOK stable ds cover (columnIndices shuffle T) := by
  have hok := fun c => indexOK_bitmaps shuffle hs (fun _ => none) (T c) (hT c).small (hT c).ids
  refine ⟨?_, ?_, ?_, ?_, ?_⟩
  · intro c s t h
    simp only [columnIndices, bitmapIndices] at h
    cases hq : s.toScalar with
    | none => rw [hq] at h; cases h
    | some q' =>
      rw [hq] at h
      have := tidy_trainBitmap shuffle hs (colRows (T c) c)
      exact tidy_bitmapSearch this.1 this.2 q' h
  · intro c s t h
    simp only [columnIndices, bitmapIndices] at h
    have := tidy_trainBitmap shuffle hs (Scalar.unnest (listRows (T c) c))
    exact tidy_searchLabels this.1 this.2 s h
  · intro c f hf hc v env hr s s' t h1 h2
    have hin := (hT c).rows f hf hc _ hr
    rw [((hok c).scalar c s s' t h1 h2).2 v ((hT c).small _ hin)]
    simp only [List.mem_map, Prod.mk.injEq]
    constructor
    · rintro ⟨w, ⟨⟨i, env'⟩, h3, rfl, rfl⟩, h4⟩
      rw [table_unique (hT c).ids hin env' h3] at h4
      exact h4
    · intro h
      exact ⟨_, ⟨_, hin, rfl, rfl⟩, h⟩
  · intro c f hf hc v env hr s t h
    have hin := (hT c).rows f hf hc _ hr
    rw [((hok c).lists c s t h).2 v ((hT c).small _ hin)]
    constructor
    · rintro ⟨env', h3, h4⟩
      rw [table_unique (hT c).ids hin env' h3] at h4
      exact h4
    · intro h
      exact ⟨env, hin, h⟩
  · intro hst c t h v hv hcon f hf e
    rcases h with ⟨s, h⟩ | ⟨s, h⟩
    · cases hq : s.toScalar with
      | none => simp only [columnIndices, bitmapIndices, hq] at h; cases h
      | some q' =>
        obtain ⟨w, h1, _⟩ := (((hok c).scalar c s q' t hq h).2 v hv).mp hcon
        obtain ⟨r, hr, h2⟩ := List.mem_map.mp h1
        cases h2
        exact (hT c).inside hst r hr f hf e
    · obtain ⟨env, h1, _⟩ := (((hok c).lists c s t h).2 v hv).mp hcon
      exact (hT c).inside hst _ h1 f hf e

/-- A query whose ranges are in order is answered. -/
theorem evaluate_columns (stable : Bool) (ds : List (Frag V)) (cover : Nat → List Nat)
    (shuffle : List (Option V × TreeMap) → List (Option V × TreeMap)) (hs : ∀ l, (shuffle l).Perm l)
    (T : Nat → Table V) (hT : ∀ c, BuiltOver stable ds (cover c) (T c)) (q : IxExpr V) (hq : Orderly q) :
    evaluate (columnIndices shuffle T) q ≠ none := by
  induction q with
  | not e ih =>
    obtain ⟨m, hm⟩ := Option.ne_none_iff_exists'.1 (ih hq)
    simp [evaluate, hm]
  | and l r ihl ihr =>
    obtain ⟨m, hm⟩ := Option.ne_none_iff_exists'.1 (ihl hq.1)
    obtain ⟨m', hm'⟩ := Option.ne_none_iff_exists'.1 (ihr hq.2)
    simp [evaluate, hm, hm']
  | or l r ihl ihr =>
    obtain ⟨m, hm⟩ := Option.ne_none_iff_exists'.1 (ihl hq.1)
    obtain ⟨m', hm'⟩ := Option.ne_none_iff_exists'.1 (ihr hq.2)
    simp [evaluate, hm, hm']
  | query c q =>
    have := evaluate_orderly shuffle hs (fun _ => none) (T c) (hT c).small (hT c).ids (.query c q) hq
    exact this
  | labels c q =>
    have := evaluate_orderly shuffle hs (fun _ => none) (T c) (hT c).small (hT c).ids (.labels c q) hq
    exact this

end Verif.Iscan
