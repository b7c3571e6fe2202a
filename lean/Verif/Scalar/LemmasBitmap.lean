import Verif.Scalar.Lemmas

/-! Helper lemmas for the bitmap index. -/
namespace Verif.Scalar
open Verif
open Verif.RowSet (TreeMap)

variable {V : Type} [LinOrd V] [DecidableEq V]

/-- The state of the training holds exactly `rows`. -/
structure StExact (st : List (Option V × TreeMap)) (rows : List (Row V)) : Prop where
  nodup : (st.map (·.1)).Nodup
  plain : ∀ e ∈ st, Plain e.2
  exact : ∀ k i, i < 2 ^ 64 → (RowSet.contains ((getKey k st).getD []) i = true ↔ (k, i) ∈ rows)

/-- The index holds exactly `rows`. -/
structure BExact (b : Bitmap V) (rows : List (Row V)) : Prop where
  sorted : KSorted b.map
  plain : ∀ e ∈ b.map, Plain e.2
  plainNulls : Plain b.nulls
  exact : ∀ x i, i < 2 ^ 64 → (RowSet.contains ((getKey x b.map).getD []) i = true ↔ (some x, i) ∈ rows)
  nulls : ∀ i, i < 2 ^ 64 → (RowSet.contains b.nulls i = true ↔ (none, i) ∈ rows)

omit [LinOrd V] in
theorem plain_getKey {K : Type} [DecidableEq K] {st : List (K × TreeMap)} (h : ∀ e ∈ st, Plain e.2) (k : K) :
    Plain ((getKey k st).getD []) := by
  cases hg : getKey k st with
  | none => exact plain_nil
  | some m => exact h _ (getKey_some_mem hg)

omit [LinOrd V] in
theorem mem_setKey {K W : Type} [DecidableEq K] {k : K} {w : W} {m : List (K × W)} {e : K × W}
    (h : e ∈ setKey k w m) : e = (k, w) ∨ e ∈ m := by
  induction m with
  | nil => simp [setKey] at h; exact Or.inl h
  | cons x m ih =>
    simp only [setKey] at h
    split at h
    · rcases List.mem_cons.1 h with h | h
      · exact Or.inl h
      · exact Or.inr (List.mem_cons_of_mem _ h)
    · rcases List.mem_cons.1 h with h | h
      · exact Or.inr (by rw [h]; exact List.mem_cons_self ..)
      · rcases ih h with h | h
        · exact Or.inl h
        · exact Or.inr (List.mem_cons_of_mem _ h)

omit [LinOrd V] in
theorem stExact_nil : StExact ([] : List (Option V × TreeMap)) [] :=
  ⟨by simp, by simp, by intro k i _; simp [getKey_nil, contains_nil]⟩

omit [LinOrd V] in
theorem stExact_set {st : List (Option V × TreeMap)} {rows rows' : List (Row V)} (h : StExact st rows)
    (k : Option V) (m : TreeMap) (hm : Plain m)
    (h1 : ∀ j i, j ≠ k → ((j, i) ∈ rows' ↔ (j, i) ∈ rows))
    (h2 : ∀ i, i < 2 ^ 64 → (RowSet.contains m i = true ↔ (k, i) ∈ rows')) :
    StExact (setKey k m st) rows' := by
  refine ⟨nodup_setKey _ _ _ h.nodup, ?_, ?_⟩
  · intro e he
    rcases mem_setKey he with rfl | he
    · exact hm
    · exact h.plain e he
  · intro j i hi
    rw [getKey_setKey]
    split
    · rename_i hj; subst hj; exact h2 i hi
    · rename_i hj
      rw [h1 j i hj]; exact h.exact j i hi

omit [LinOrd V] in
theorem stExact_row {st : List (Option V × TreeMap)} {rows : List (Row V)} (h : StExact st rows) (r : Row V)
    (hr : r.2 < 2 ^ 64) : StExact (trainRow st r) (rows ++ [r]) := by
  obtain ⟨v, n⟩ := r
  apply stExact_set h
  · exact plain_insert (plain_getKey h.plain _) _
  · intro j i hj
    simp [hj]
  · intro i hi
    rw [contains_insert _ _ hr _ hi, h.exact _ _ hi]
    simp

omit [LinOrd V] in
theorem stExact_train {st : List (Option V × TreeMap)} {rows : List (Row V)} (h : StExact st rows)
    (new : List (Row V)) (hn : ∀ r ∈ new, r.2 < 2 ^ 64) : StExact (trainState st new) (rows ++ new) := by
  unfold trainState
  induction new generalizing st rows with
  | nil => simpa using h
  | cons r new ih =>
    rw [List.foldl_cons]
    have := ih (stExact_row h r (hn r (List.mem_cons_self ..))) (fun r' h' => hn r' (List.mem_cons_of_mem _ h'))
    simpa using this

/-- What has been loaded after the entries `done`. -/
structure Loaded (b : Bitmap V) (done : List (Option V × TreeMap)) : Prop where
  sorted : KSorted b.map
  plain : ∀ e ∈ b.map, Plain e.2
  plainNulls : Plain b.nulls
  get : ∀ x, getKey x b.map = getKey (some x) done
  nulls : b.nulls = (getKey none done).getD []

omit [LinOrd V] in
theorem getKey_append {K W : Type} [DecidableEq K] (k : K) (m m' : List (K × W)) :
    getKey k (m ++ m') = (getKey k m).or (getKey k m') := by
  induction m with
  | nil => simp [getKey_nil]
  | cons e m ih =>
    rw [List.cons_append, getKey_cons, getKey_cons, ih]
    split <;> simp

omit [LinOrd V] in
theorem getKey_eq_none {K W : Type} [DecidableEq K] {k : K} {m : List (K × W)} (h : k ∉ m.map (·.1)) :
    getKey k m = none := by
  cases hg : getKey k m with
  | none => rfl
  | some w => exact absurd (List.mem_map_of_mem (f := (·.1)) (getKey_some_mem hg)) h

theorem loaded_entry {b : Bitmap V} {done : List (Option V × TreeMap)} (h : Loaded b done)
    (e : Option V × TreeMap) (he : Plain e.2) (hn : e.1 ∉ done.map (·.1)) : Loaded (loadEntry b e) (done ++ [e]) := by
  obtain ⟨k, m⟩ := e
  cases k with
  | none =>
    refine ⟨h.sorted, h.plain, he, ?_, ?_⟩
    · intro x
      show getKey x b.map = _
      rw [getKey_append, h.get x, getKey_cons, if_neg (by simp), getKey_nil]
      simp
    · show m = _
      rw [getKey_append, getKey_eq_none hn, getKey_cons]
      simp
  | some k =>
    refine ⟨ksorted_insertKey _ _ _ h.sorted, ?_, h.plainNulls, ?_, ?_⟩
    · intro x hx
      rcases mem_insertKey hx with rfl | hx
      · exact he
      · exact h.plain x hx
    · intro x
      show getKey x (insertKey k m b.map) = _
      rw [getKey_insertKey _ _ _ _ h.sorted, getKey_append, getKey_cons, getKey_nil, h.get x]
      split
      · rename_i hx; subst hx
        rw [getKey_eq_none hn]; simp
      · rename_i hx
        rw [if_neg (by simpa using fun e => hx e.symm)]
        simp
    · show b.nulls = _
      rw [getKey_append, getKey_cons, if_neg (by simp), getKey_nil, h.nulls]
      simp

theorem loaded_all (es : List (Option V × TreeMap)) {b : Bitmap V} {done : List (Option V × TreeMap)}
    (h : Loaded b done) (hp : ∀ e ∈ es, Plain e.2) (hn : ((done ++ es).map (·.1)).Nodup) :
    Loaded (es.foldl loadEntry b) (done ++ es) := by
  induction es generalizing b done with
  | nil => simpa using h
  | cons e es ih =>
    rw [List.foldl_cons]
    have hd : e.1 ∉ done.map (·.1) := by
      rw [List.map_append, List.map_cons, List.nodup_append] at hn
      intro hc
      exact hn.2.2 _ hc _ (List.mem_cons_self ..) rfl
    have := ih (loaded_entry h e (hp e (List.mem_cons_self ..)) hd) (fun x hx => hp x (List.mem_cons_of_mem _ hx))
      (by simpa using hn)
    simpa using this

theorem bExact_load {st : List (Option V × TreeMap)} {rows : List (Row V)} (h : StExact st rows)
    (shuffle : List (Option V × TreeMap) → List (Option V × TreeMap)) (hs : ∀ l, (shuffle l).Perm l) :
    BExact (loadBitmap (shuffle st)) rows := by
  have hl : Loaded (loadBitmap (shuffle st)) ([] ++ shuffle st) := by
    apply loaded_all
    · exact ⟨List.Pairwise.nil, by simp, plain_nil, fun x => rfl, rfl⟩
    · intro e he; exact h.plain e ((hs st).mem_iff.1 he)
    · rw [List.nil_append]
      exact ((hs st).map _).nodup_iff.2 h.nodup
  rw [List.nil_append] at hl
  refine ⟨hl.sorted, hl.plain, hl.plainNulls, ?_, ?_⟩
  · intro x i hi
    rw [hl.get, getKey_perm (hs st) h.nodup]
    exact h.exact _ _ hi
  · intro i hi
    rw [hl.nulls, getKey_perm (hs st) h.nodup]
    exact h.exact _ _ hi

/-- A loaded index taken apart again holds the same rows. -/
theorem stExact_of_bitmap {b : Bitmap V} {rows : List (Row V)} (h : BExact b rows) :
    StExact (setKey none b.nulls (b.map.map (fun e => (some e.1, e.2)))) rows := by
  have hget : ∀ x, getKey (some x) (b.map.map (fun e => (some e.1, e.2))) = getKey x b.map := by
    intro x
    generalize b.map = m
    induction m with
    | nil => rfl
    | cons e m ih =>
      rw [List.map_cons, getKey_cons, getKey_cons, ih]
      simp
  have hkeys : (b.map.map (fun e => (some e.1, e.2))).map (·.1) = (b.map.map (·.1)).map some := by
    rw [List.map_map, List.map_map]; rfl
  refine ⟨?_, ?_, ?_⟩
  · apply nodup_setKey
    rw [hkeys]
    have := h.sorted.nodup
    unfold List.Nodup at this ⊢
    rw [List.pairwise_map]
    exact this.imp (fun h => by simpa using h)
  · intro e he
    rcases mem_setKey he with rfl | he
    · exact h.plainNulls
    · rw [List.mem_map] at he
      obtain ⟨x, hx, rfl⟩ := he
      exact h.plain x hx
  · intro k i hi
    rw [getKey_setKey]
    cases k with
    | none => simpa using h.nulls i hi
    | some x =>
      rw [if_neg (by simp), hget]
      exact h.exact x i hi

/-! ### Searching -/

theorem contains_bitmapIn {b : Bitmap V} {rows : List (Row V)} (h : BExact b rows) (ws : List (Option V))
    (acc : TreeMap) (i : Nat) (hi : i < 2 ^ 64) :
    RowSet.contains (ws.foldl (bitmapIn b) acc) i = true ↔
      RowSet.contains acc i = true ∨ ∃ w ∈ ws, (w, i) ∈ rows := by
  induction ws generalizing acc with
  | nil => simp
  | cons w ws ih =>
    rw [List.foldl_cons, ih]
    have hstep : RowSet.contains (bitmapIn b acc w) i = true ↔ RowSet.contains acc i = true ∨ (w, i) ∈ rows := by
      cases w with
      | none =>
        show RowSet.contains (RowSet.or acc b.nulls) i = true ↔ _
        rw [contains_or h.plainNulls, h.nulls i hi]
      | some x =>
        have he := h.exact x i hi
        unfold bitmapIn
        simp only
        cases hg : getKey x b.map with
        | none =>
          rw [hg] at he
          simp only [Option.getD_none, contains_nil, Bool.false_eq_true, false_iff] at he
          simp [he]
        | some m =>
          rw [hg] at he
          simp only [Option.getD_some] at he
          rw [← he]
          exact contains_or (h.plain _ (getKey_some_mem hg)) i
    rw [hstep]
    simp only [List.mem_cons, exists_eq_or_imp, or_assoc]

theorem contains_range {b : Bitmap V} {rows : List (Row V)} (h : BExact b rows) (p : V → Bool) (i : Nat)
    (hi : i < 2 ^ 64) :
    RowSet.contains (RowSet.unionAll ((b.map.filter (fun e => p e.1)).map (·.2))) i = true ↔
      ∃ x, (some x, i) ∈ rows ∧ p x = true := by
  rw [RowSet.C02_union_all]
  · constructor
    · rintro ⟨t, ht, hc⟩
      rw [List.mem_map] at ht
      obtain ⟨⟨x, t'⟩, he, rfl⟩ := ht
      rw [List.mem_filter] at he
      refine ⟨x, ?_, he.2⟩
      rw [← h.exact x i hi, getKey_of_mem h.sorted.nodup he.1]
      exact hc
    · rintro ⟨x, hx, hp⟩
      rw [← h.exact x i hi] at hx
      cases hg : getKey x b.map with
      | none => rw [hg] at hx; simp [contains_nil] at hx
      | some m =>
        rw [hg] at hx
        exact ⟨m, List.mem_map.2 ⟨(x, m), List.mem_filter.2 ⟨getKey_some_mem hg, hp⟩, rfl⟩, hx⟩
  · intro t ht
    rw [List.mem_map] at ht
    obtain ⟨e, he, rfl⟩ := ht
    exact (h.plain e (List.mem_filter.1 he).1).1

/-! ### Remapping -/

/-- What becomes of a row in `remap`. -/
def bitmapRemapRow (f : Mapping) (r : Row V) : Option (Row V) :=
  match r.1, f r.2 with
  | some x, some (some n) => some (some x, n)
  | _, _ => none

theorem remapSet_plain (f : Mapping) (hf : ∀ i n, f i = some (some n) → n < 2 ^ 64) {m : TreeMap} (hm : Plain m) :
    ∃ m', remapSet f m = some m' ∧ Plain m' ∧
      ∀ j, j < 2 ^ 64 → (RowSet.contains m' j = true ↔
        ∃ i, i < 2 ^ 64 ∧ RowSet.contains m i = true ∧ f i = some (some j)) := by
  obtain ⟨ids, h1, h2, h3⟩ := rowIds_plain hm
  refine ⟨_, by unfold remapSet; rw [h1]; rfl, plain_extendIds _ _ plain_nil, ?_⟩
  intro j hj
  rw [contains_extendIds _ _ _ _ hj]
  · simp only [contains_nil, Bool.false_eq_true, false_or, List.mem_filterMap]
    constructor
    · rintro ⟨i, hi, he⟩
      have hlt := h2 i hi
      refine ⟨i, hlt, (h3 i hlt).1 hi, ?_⟩
      cases hfi : f i with
      | none => rw [hfi] at he; cases he
      | some o => rw [hfi] at he; simp at he; rw [he]
    · rintro ⟨i, hlt, hi, he⟩
      exact ⟨i, (h3 i hlt).2 hi, by rw [he]; rfl⟩
  · intro n hn
    rw [List.mem_filterMap] at hn
    obtain ⟨i, _, he⟩ := hn
    cases hfi : f i with
    | none => rw [hfi] at he; cases he
    | some o => rw [hfi] at he; simp at he; rw [he] at hfi; exact hf i n hfi

omit [LinOrd V] in
theorem remapEntries_spec (f : Mapping) (hf : ∀ i n, f i = some (some n) → n < 2 ^ 64) (m : List (V × TreeMap))
    (hm : ∀ e ∈ m, Plain e.2) :
    ∃ st, remapEntries f m = some st ∧ st.map (·.1) = (m.map (·.1)).map some ∧ (∀ e ∈ st, Plain e.2) ∧
      ∀ x j, j < 2 ^ 64 → (RowSet.contains ((getKey (some x) st).getD []) j = true ↔
        ∃ i, i < 2 ^ 64 ∧ RowSet.contains ((getKey x m).getD []) i = true ∧ f i = some (some j)) := by
  induction m with
  | nil =>
    refine ⟨[], rfl, rfl, by simp, ?_⟩
    intro x j _
    simp [getKey_nil, contains_nil]
  | cons e m ih =>
    obtain ⟨st, h1, h2, h3, h4⟩ := ih (fun e he => hm e (List.mem_cons_of_mem _ he))
    obtain ⟨m', g1, g2, g3⟩ := remapSet_plain f hf (hm e (List.mem_cons_self ..))
    refine ⟨(some e.1, m') :: st, by simp [remapEntries, g1, h1], by simp [h2], ?_, ?_⟩
    · intro x hx
      rcases List.mem_cons.1 hx with rfl | hx
      · exact g2
      · exact h3 x hx
    · intro x j hj
      rw [getKey_cons, getKey_cons]
      by_cases hx : e.1 = x
      · rw [if_pos (by simpa using hx), if_pos hx]
        exact g3 j hj
      · rw [if_neg (by simpa using hx), if_neg hx]
        exact h4 x j hj

theorem remapBitmap_spec (f : Mapping) (hf : ∀ i n, f i = some (some n) → n < 2 ^ 64) {b : Bitmap V}
    {rows : List (Row V)} (hr : ∀ r ∈ rows, r.2 < 2 ^ 64) (h : BExact b rows)
    (shuffle : List (Option V × TreeMap) → List (Option V × TreeMap)) (hs : ∀ l, (shuffle l).Perm l) :
    ∃ b', remapBitmap shuffle f b = some b' ∧ BExact b' (rows.filterMap (bitmapRemapRow f)) := by
  obtain ⟨st, h1, h2, h3, h4⟩ := remapEntries_spec f hf b.map h.plain
  refine ⟨loadBitmap (shuffle st), by unfold remapBitmap; rw [h1]; rfl, ?_⟩
  apply bExact_load _ _ hs
  refine ⟨?_, h3, ?_⟩
  · rw [h2]
    have := h.sorted.nodup
    unfold List.Nodup at this ⊢
    rw [List.pairwise_map]
    exact this.imp (fun h => by simpa using h)
  · intro k j hj
    cases k with
    | none =>
      have : getKey none st = none := by
        apply getKey_eq_none
        rw [h2]; simp
      rw [this]
      simp only [Option.getD_none, contains_nil, Bool.false_eq_true, false_iff, List.mem_filterMap]
      rintro ⟨⟨v, i⟩, _, he⟩
      unfold bitmapRemapRow at he
      split at he <;> simp at he
    | some x =>
      rw [h4 x j hj]
      simp only [List.mem_filterMap]
      constructor
      · rintro ⟨i, hi, hc, he⟩
        rw [h.exact x i hi] at hc
        exact ⟨(some x, i), hc, by simp [bitmapRemapRow, he]⟩
      · rintro ⟨⟨v, i⟩, hm, he⟩
        have hi := hr _ hm
        unfold bitmapRemapRow at he
        split at he
        · rename_i y n hv hn
          simp only [Option.some.injEq, Prod.mk.injEq] at he
          simp only at hv hn hi
          obtain ⟨e1, e2⟩ := he
          subst hv
          rw [e1] at hm
          rw [e2] at hn
          exact ⟨i, hi, (h.exact x i hi).2 hm, hn⟩
        · cases he

end Verif.Scalar
