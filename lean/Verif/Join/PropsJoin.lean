import Verif.Join.PropsUpdater

/-!
# C34: merging columns by key
-/
namespace Verif.Join
open Verif Verif.Read Verif.Deletion

/-! ## The map built by the concurrent tasks -/

/-- All positions (batch, row) of the right table. -/
def allIx {K V : Type} (r : RightTable K V) : List (Nat × Nat) :=
  r.batches.zipIdx.flatMap (fun x => (List.range x.1.length).map (fun j => (x.2, j)))

theorem mem_allIx {K V : Type} (r : RightTable K V) (ix : Nat × Nat) : ix ∈ allIx r ↔ (r.row ix).isSome = true := by
  obtain ⟨i, j⟩ := ix
  unfold allIx RightTable.row
  simp only [List.mem_flatMap, List.mem_map, List.mem_range, Prod.mk.injEq, Prod.exists]
  constructor
  · rintro ⟨b, i', hm, j', hj, rfl, rfl⟩
    rw [List.mem_zipIdx_iff_getElem?] at hm
    simp only at hm
    rw [hm]
    simp [hj]
  · intro h
    cases hb : r.batches[i]? with
    | none => rw [hb] at h; cases h
    | some b =>
      rw [hb] at h
      simp at h
      exact ⟨b, i, by rw [List.mem_zipIdx_iff_getElem?]; exact hb, j, h, rfl, rfl⟩

/-- The orders in which the inserts may happen: every row once, the rows of one batch in order, the batches in any
interleaving. -/
structure IsSchedule {K V : Type} (r : RightTable K V) (order : List (Nat × Nat)) : Prop where
  perm : order.Perm (allIx r)
  inBatch : ∀ i, (order.filter (fun ix => ix.1 == i)).Pairwise (fun a b => a.2 < b.2)

/-- The key of the right row at a position. -/
def keyAt {K V : Type} (r : RightTable K V) (ix : Nat × Nat) : Option (Option K) := (r.row ix).map (·.1)

/-- A lookup finds the position inserted last among those with the key. -/
theorem buildMap_eq {K V : Type} [DecidableEq K] (r : RightTable K V) (order : List (Nat × Nat))
    (m : Option K → Option (Nat × Nat)) (k : Option K) :
    buildMap r order m k =
      match (order.filter (fun ix => decide (keyAt r ix = some k))).getLast? with
      | some ix => some ix
      | none => m k := by
  induction order generalizing m with
  | nil => rfl
  | cons ix order ih =>
    unfold buildMap
    cases hr : r.row ix with
    | none =>
      simp only
      rw [ih, List.filter_cons_of_neg (by simp [keyAt, hr])]
    | some row =>
      simp only
      rw [ih]
      by_cases hk : row.1 = k
      · rw [List.filter_cons_of_pos (by simp [keyAt, hr, hk])]
        cases hl : (order.filter (fun ix => decide (keyAt r ix = some k))).getLast? with
        | none =>
          rw [List.getLast?_eq_none_iff] at hl
          rw [hl]
          simp [insertKey, hk]
        | some jx =>
          rw [List.getLast?_cons, hl]
          rfl
      · rw [List.filter_cons_of_neg (by simp [keyAt, hr, hk])]
        cases hl : (order.filter (fun ix => decide (keyAt r ix = some k))).getLast? with
        | none => simp [insertKey, Ne.symm hk]
        | some jx => rfl

/-- The rows of the right table. -/
def RightTable.rows {K V : Type} (r : RightTable K V) : List (Option K × List (Option V)) := r.batches.flatten

theorem mem_rows {K V : Type} (r : RightTable K V) (row : Option K × List (Option V)) :
    row ∈ r.rows ↔ ∃ ix, r.row ix = some row := by
  unfold RightTable.rows RightTable.row
  rw [List.mem_flatten]
  constructor
  · rintro ⟨b, hb, hrow⟩
    obtain ⟨i, hi⟩ := List.mem_iff_getElem?.mp hb
    obtain ⟨j, hj⟩ := List.mem_iff_getElem?.mp hrow
    exact ⟨(i, j), by rw [hi]; exact hj⟩
  · rintro ⟨⟨i, j⟩, h⟩
    cases hb : r.batches[i]? with
    | none => rw [hb] at h; cases h
    | some b =>
      rw [hb] at h
      exact ⟨b, List.mem_of_getElem? hb, List.mem_of_getElem? h⟩

/-- What a lookup returns, for any order: a row with that key if there is one, nothing otherwise. -/
theorem lookup_spec {K V : Type} [DecidableEq K] (r : RightTable K V) (order : List (Nat × Nat))
    (h : order.Perm (allIx r)) (k : Option K) :
    (∃ ix row, buildMap r order (fun _ => none) k = some ix ∧ r.row ix = some row ∧ row.1 = k) ∨
    (buildMap r order (fun _ => none) k = none ∧ ∀ row ∈ r.rows, row.1 ≠ k) := by
  rw [buildMap_eq]
  cases hl : (order.filter (fun ix => decide (keyAt r ix = some k))).getLast? with
  | some ix =>
    left
    have hm := List.mem_of_getLast? hl
    rw [List.mem_filter] at hm
    have hk := of_decide_eq_true hm.2
    unfold keyAt at hk
    cases hr : r.row ix with
    | none => rw [hr] at hk; cases hk
    | some row => rw [hr] at hk; exact ⟨ix, row, rfl, hr, by simpa using hk⟩
  | none =>
    right
    refine ⟨rfl, ?_⟩
    intro row hrow he
    obtain ⟨ix, hix⟩ := (mem_rows r row).mp hrow
    rw [List.getLast?_eq_none_iff, List.filter_eq_nil_iff] at hl
    have hm : ix ∈ order := h.mem_iff.mpr ((mem_allIx r ix).mpr (by rw [hix]; rfl))
    exact hl ix hm (by simp [keyAt, hix, he])

/-- The values `fetch` yields, when it does not panic. -/
def fetched {K V : Type} (j : Joiner K V) (k : Option K) : List (Option V) := (fetch j k).getD []

theorem mapM_fetched {K V : Type} (j : Joiner K V) (keys : List (Option K)) (v : List (List (Option V)))
    (h : keys.mapM (fetch j) = some v) : v = keys.map (fetched j) := by
  induction keys generalizing v with
  | nil => cases h; rfl
  | cons k keys ih =>
    rw [List.mapM_cons] at h
    cases hf : fetch j k with
    | none => rw [hf] at h; cases h
    | some row =>
      rw [hf] at h
      cases hm : keys.mapM (fetch j) with
      | none => rw [hm] at h; cases h
      | some rs =>
        rw [hm] at h
        cases h
        rw [List.map_cons, ← ih rs hm]
        simp [fetched, hf]

theorem collect_rowWise {K V : Type} (j : Joiner K V) (kt : Nat) (keys : List (Option K))
    (v : List (List (Option V))) (h : collect j kt keys = .ok v) : v = keys.map (fetched j) := by
  unfold collect at h
  split at h
  · cases h
  · split at h
    · cases h
    · rename_i rows hrows
      split at h
      · cases h
      · cases h
        exact mapM_fetched j keys _ hrows

/-- Two rows of the right table with the same key are the same row. -/
def UniqueKeys {K V : Type} (r : RightTable K V) : Prop :=
  ∀ a ∈ r.rows, ∀ b ∈ r.rows, a.1 = b.1 → a.2 = b.2

/-- The row is right: the values of the right row with that key, nulls if there is none. -/
def Joined {K V : Type} (r : RightTable K V) (k : Option K) (vals : List (Option V)) : Prop :=
  (∀ row ∈ r.rows, row.1 = k → vals = row.2) ∧
  ((∀ row ∈ r.rows, row.1 ≠ k) → vals = r.nullable.map (fun _ => none))

/-- C34, full statement: merging on a key succeeds, and every row gets the values of the right row with its key, or
nulls, however the concurrent build of the hash map was scheduled. -/
def C34_statement : Prop :=
  ∀ (α V : Type) (split : List α → List (List α)) (f : Frag α) (o : Opts) (keyOf : Row α → Option Nat) (kt : Nat)
    (r : RightTable Nat V) (order : List (Nat × Nat)),
    Splits split → f.OK → o.nulls = false → 0 < f.rows → IsSchedule r order → UniqueKeys r → r.batches ≠ [] →
    r.nullable ≠ [] → r.keyType = kt → (∀ row ∈ r.rows, row.2.length = r.nullable.length) →
    ∃ out, mergeFragment split none o f keyOf kt r order = .ok out ∧ out.length = f.rows ∧
      ∀ off, off < f.rows → live f.dv off = true → ∃ vals, out[off]? = some vals ∧ Joined r (keyOf (rowAt f o off)) vals

/-- Three rows with keys 0, 1, 2. -/
def left3 : Frag Nat := { id := 0, rows := 3, dv := none, seq := none, file := fun o => o }

theorem left3_ok : left3.OK where
  rows := by decide
  dv := by intro d h; cases h
  seq := by intro q h; cases h

/-- A value for key 0 and for key 2, in a column whose type Lance takes not to hold nulls (say `Int32`). -/
def rightInt : RightTable Nat Nat :=
  { batches := [[(some 0, [some 70])], [(some 2, [some 72])]], nullable := [false], keyType := 0 }

/-- The same in a string column. -/
def rightStr : RightTable Nat Nat := { rightInt with nullable := [true] }

theorem right_schedule (b : List Bool) : IsSchedule { rightInt with nullable := b } [(1, 0), (0, 0)] := by
  constructor
  · show List.Perm [(1, 0), (0, 0)] [(0, 0), (1, 0)]
    exact List.Perm.swap _ _ _
  · intro i
    by_cases h1 : i = 1
    · subst h1; decide
    · by_cases h0 : i = 0
      · subst h0; decide
      · rw [List.filter_eq_nil_iff.mpr]
        · exact List.Pairwise.nil
        · intro x hx
          simp only [List.mem_cons, List.not_mem_nil, or_false] at hx
          rcases hx with rfl | rfl
          · simpa using fun h => h1 h.symm
          · simpa using fun h => h0 h.symm

/-- It fails: a row without a match makes the whole merge fail when a new column has a type that
`lance_supports_nulls` does not list (numbers, booleans, dates, structs, ...). -/
theorem C34_violated : ¬ C34_statement := by
  intro h
  obtain ⟨out, h1, _⟩ := h Nat Nat pairs left3 ⟨false, false, false⟩ (fun r => some r.data) 0 rightInt [(1, 0), (0, 0)]
    pairs_splits left3_ok rfl (by decide) (right_schedule [false]) (by
      unfold UniqueKeys; decide) (by decide) (by decide) rfl (by decide)
  revert h1
  rw [show mergeFragment pairs none ⟨false, false, false⟩ left3 (fun r => some r.data) 0 rightInt [(1, 0), (0, 0)] =
    .error .nulls from rfl]
  intro h1
  cases h1

/-- C34, safety in all cases: a merge that succeeds gives every row the values of the right row with its key, or
nulls if there is none — for every order of the inserts and however the fragment is cut into batches.  Asked for:
right keys are unique. -/
theorem C34_merge_partial {α K V : Type} [DecidableEq K] (split : List α → List (List α)) (legacy : Option Nat)
    (f : Frag α) (o : Opts) (keyOf : Row α → Option K) (kt : Nat) (r : RightTable K V) (order : List (Nat × Nat))
    (hsp : Splits split) (hf : f.OK) (hn : o.nulls = false) (hs : IsSchedule r order) (hu : UniqueKeys r)
    (out : List (List (Option V))) (h : mergeFragment split legacy o f keyOf kt r order = .ok out) :
    out.length = f.rows ∧ ∀ off, off < f.rows → live f.dv off = true →
      ∃ vals, out[off]? = some vals ∧ Joined r (keyOf (rowAt f o off)) vals := by
  unfold mergeFragment at h
  unfold joinerNew at h
  split at h
  · cases h
  · rename_i j hj
    split at hj
    · cases hj
    · split at hj
      · cases hj
      · cases hj
        obtain ⟨h1, h2⟩ := C58_aligned_partial split legacy f o _
          (fun row => fetched { map := buildMap r order (fun _ => none), right := r } (keyOf row)) hsp hf hn (by
            intro b v hv
            rw [collect_rowWise _ _ _ _ hv, List.map_map]
            rfl) out h
        refine ⟨h1, ?_⟩
        intro off ho hl
        refine ⟨_, h2 off ho hl, ?_⟩
        rcases lookup_spec r order hs.perm (keyOf (rowAt f o off)) with ⟨ix, row, e1, e2, e3⟩ | ⟨e1, e2⟩
        · have hfe : fetched { map := buildMap r order (fun _ => none), right := r } (keyOf (rowAt f o off)) = row.2 := by
            simp [fetched, fetch, e1, e2]
          show Joined r _ (fetched _ _)
          rw [hfe]
          have hm : row ∈ r.rows := (mem_rows r row).mpr ⟨ix, e2⟩
          refine ⟨fun row' hr' hk => hu row hm row' hr' (by rw [e3, hk]), fun hno => absurd e3 (hno row hm)⟩
        · have hfe : fetched { map := buildMap r order (fun _ => none), right := r } (keyOf (rowAt f o off)) =
              r.nullable.map (fun _ => none) := by
            simp [fetched, fetch, e1]
          show Joined r _ (fetched _ _)
          rw [hfe]
          exact ⟨fun row hr hk => absurd hk (e2 row hr), fun _ => rfl⟩

/-- With repeated right keys a row still gets the values of one of the right rows with its key. -/
theorem C34_some_match_partial {α K V : Type} [DecidableEq K] (split : List α → List (List α)) (legacy : Option Nat)
    (f : Frag α) (o : Opts) (keyOf : Row α → Option K) (kt : Nat) (r : RightTable K V) (order : List (Nat × Nat))
    (hsp : Splits split) (hf : f.OK) (hn : o.nulls = false) (hs : IsSchedule r order)
    (out : List (List (Option V))) (h : mergeFragment split legacy o f keyOf kt r order = .ok out) :
    ∀ off, off < f.rows → live f.dv off = true →
      ∃ vals, out[off]? = some vals ∧
        ((∃ row ∈ r.rows, row.1 = keyOf (rowAt f o off) ∧ vals = row.2) ∨
          ((∀ row ∈ r.rows, row.1 ≠ keyOf (rowAt f o off)) ∧ vals = r.nullable.map (fun _ => none))) := by
  unfold mergeFragment at h
  unfold joinerNew at h
  split at h
  · cases h
  · rename_i j hj
    split at hj
    · cases hj
    · split at hj
      · cases hj
      · cases hj
        obtain ⟨h1, h2⟩ := C58_aligned_partial split legacy f o _
          (fun row => fetched { map := buildMap r order (fun _ => none), right := r } (keyOf row)) hsp hf hn (by
            intro b v hv
            rw [collect_rowWise _ _ _ _ hv, List.map_map]
            rfl) out h
        intro off ho hl
        refine ⟨_, h2 off ho hl, ?_⟩
        rcases lookup_spec r order hs.perm (keyOf (rowAt f o off)) with ⟨ix, row, e1, e2, e3⟩ | ⟨e1, e2⟩
        · left
          exact ⟨row, (mem_rows r row).mpr ⟨ix, e2⟩, e3, by simp [fetched, fetch, e1, e2]⟩
        · right
          exact ⟨e2, by simp [fetched, fetch, e1]⟩

/-! ## When a merge succeeds -/

/-- Every live row has a match without forbidden nulls, or every new column may be null. -/
def NullsFit {α K V : Type} (f : Frag α) (o : Opts) (keyOf : Row α → Option K) (r : RightTable K V) : Prop :=
  ∀ off, off < f.rows → live f.dv off = true → ∀ vals, (∃ row ∈ r.rows, row.1 = keyOf (rowAt f o off) ∧ vals = row.2) ∨
    ((∀ row ∈ r.rows, row.1 ≠ keyOf (rowAt f o off)) ∧ vals = r.nullable.map (fun _ => none)) →
    badNull r.nullable vals = false

theorem fetch_some {K V : Type} [DecidableEq K] (r : RightTable K V) (order : List (Nat × Nat))
    (h : order.Perm (allIx r)) (k : Option K) :
    fetch { map := buildMap r order (fun _ => none), right := r } k =
      some (fetched { map := buildMap r order (fun _ => none), right := r } k) := by
  rcases lookup_spec r order h k with ⟨ix, row, e1, e2, _⟩ | ⟨e1, _⟩
  · simp [fetched, fetch, e1, e2]
  · simp [fetched, fetch, e1]

theorem mapM_some {β γ : Type} (f : β → Option γ) (g : β → γ) (l : List β) (h : ∀ x ∈ l, f x = some (g x)) :
    l.mapM f = some (l.map g) := by
  induction l with
  | nil => rfl
  | cons a l ih =>
    rw [List.mapM_cons, h a List.mem_cons_self, ih (fun x hx => h x (List.mem_cons_of_mem _ hx))]
    rfl

/-- C34 for v2 files: a merge succeeds — and by `C34_merge_partial` is right — if the right side has rows and columns,
the key types agree, the first batch of the fragment has a live row and no forbidden null comes up.  Missing from the
full statement: those conditions. -/
theorem C34_success_partial {α K V : Type} [DecidableEq K] (split : List α → List (List α)) (f : Frag α) (o : Opts)
    (keyOf : Row α → Option K) (kt : Nat) (r : RightTable K V) (order : List (Nat × Nat)) (s : Nat) (ss : List Nat)
    (hsp : Splits split) (hf : f.OK) (hn : o.nulls = false) (hs : IsSchedule r order)
    (hb : r.batches ≠ []) (hc : r.nullable ≠ []) (hk : r.keyType = kt) (hnf : NullsFit f o keyOf r)
    (hsz : batchSizes split f = s :: ss) (hs0 : 0 < s) (hlive : ∃ off, off < s ∧ live f.dv off = true) :
    ∃ out, mergeFragment split none o f keyOf kt r order = .ok out := by
  unfold mergeFragment joinerNew
  rw [if_neg (by simpa using hb), if_neg (by simpa using hc)]
  simp only
  have h := (C58_v2_partial split f o (fun b => collect { map := buildMap r order (fun _ => none), right := r } kt
      (b.map keyOf)) (fun row => fetched { map := buildMap r order (fun _ => none), right := r } (keyOf row)) hsp hf hn (by
    intro b hbm
    show collect _ kt (b.map keyOf) = _
    unfold collect
    rw [if_neg (by simp [hk])]
    rw [mapM_some _ (fetched { map := buildMap r order (fun _ => none), right := r }) _
      (fun x _ => fetch_some r order hs.perm x)]
    simp only
    rw [if_neg, List.map_map]
    · rfl
    · simp only [Bool.not_eq_true, List.any_eq_false]
      intro vals hv
      obtain ⟨key, hkey, rfl⟩ := List.mem_map.mp hv
      obtain ⟨row, hrow, rfl⟩ := List.mem_map.mp hkey
      obtain ⟨off, ho, hl, rfl⟩ := hbm row hrow
      have hbad := hnf off ho hl (fetched { map := buildMap r order (fun _ => none), right := r } (keyOf (rowAt f o off)))
        (by
          rcases lookup_spec r order hs.perm (keyOf (rowAt f o off)) with ⟨ix, rw', e1, e2, e3⟩ | ⟨e1, e2⟩
          · left
            exact ⟨rw', (mem_rows r rw').mpr ⟨ix, e2⟩, e3, by simp [fetched, fetch, e1, e2]⟩
          · right
            exact ⟨e2, by simp [fetched, fetch, e1]⟩)
      simpa using hbad) s ss hsz hs0).1 hlive
  obtain ⟨out, hout, _⟩ := h
  exact ⟨out, hout⟩

/-! ## Concrete cases and what goes wrong -/

/-- The rows of a result. -/
def rowsOf {β : Type} (x : Except Err (List β)) : List β :=
  match x with
  | .ok l => l
  | .error _ => []

/-- The unmatched row gets a null in the string column. -/
example : rowsOf (mergeFragment pairs none ⟨false, false, false⟩ left3 (fun r => some r.data) 0 rightStr
    [(1, 0), (0, 0)]) = [[some 70], [none], [some 72]] := by decide

example : IsSchedule rightStr [(1, 0), (0, 0)] ∧ UniqueKeys rightStr ∧ batchSizes pairs left3 = [2, 1] :=
  ⟨right_schedule [true], by unfold UniqueKeys; decide, by decide⟩

example : NullsFit left3 ⟨false, false, false⟩ (fun r => some r.data) rightStr := by
  intro off ho _ vals h
  rcases h with ⟨row, hr, _, rfl⟩ | ⟨_, rfl⟩
  · have : row ∈ ([(some 0, [some 70]), (some 2, [some 72])] : List (Option Nat × List (Option Nat))) := hr
    simp only [List.mem_cons, List.not_mem_nil, or_false] at this
    rcases this with rfl | rfl <;> decide
  · decide

/-- Two right batches with key 0: which value wins depends on which task inserts last. -/
def rightDup : RightTable Nat Nat :=
  { batches := [[(some 0, [some 70])], [(some 0, [some 71])]], nullable := [true], keyType := 0 }

theorem C34_duplicates_depend_on_schedule :
    rowsOf (mergeFragment pairs none ⟨false, false, false⟩ left3 (fun _ => some 0) 0 rightDup [(0, 0), (1, 0)]) =
      [[some 71], [some 71], [some 71]] ∧
    rowsOf (mergeFragment pairs none ⟨false, false, false⟩ left3 (fun _ => some 0) 0 rightDup [(1, 0), (0, 0)]) =
      [[some 70], [some 70], [some 70]] ∧
    [(0, 0), (1, 0)].Perm (allIx rightDup) ∧ [(1, 0), (0, 0)].Perm (allIx rightDup) :=
  ⟨by decide, by decide, List.Perm.refl _, List.Perm.swap _ _ _⟩

/-- Unlike in SQL, a null key on the left matches a null key on the right. -/
theorem C34_null_keys_match :
    rowsOf (mergeFragment pairs none ⟨false, false, false⟩ left3 (fun _ => none) 0
      { batches := [[(none, [some 9])]], nullable := [true], keyType := 0 : RightTable Nat Nat } [(0, 0)]) =
      [[some 9], [some 9], [some 9]] := by decide

/-- A null value on the right side is refused as if a row had no match. -/
theorem C34_right_null_refused :
    mergeFragment pairs none ⟨false, false, false⟩ left3 (fun _ => some 0) 0
      { batches := [[(some 0, [none])]], nullable := [false], keyType := 0 : RightTable Nat Nat } [(0, 0)] =
      .error .nulls := rfl

/-- Within one batch of the right side the last row with a key wins, under every schedule. -/
theorem C34_last_in_batch {K V : Type} [DecidableEq K] (r : RightTable K V) (order : List (Nat × Nat))
    (hs : IsSchedule r order) (k : Option K) (i j : Nat) (row : Option K × List (Option V))
    (hrow : r.row (i, j) = some row) (hk : row.1 = k)
    (honly : ∀ ix, keyAt r ix = some k → ix.1 = i ∧ ix.2 ≤ j) :
    fetched { map := buildMap r order (fun _ => none), right := r } k = row.2 := by
  have hmem : (i, j) ∈ order.filter (fun ix => decide (keyAt r ix = some k)) := by
    rw [List.mem_filter]
    exact ⟨hs.perm.mem_iff.mpr ((mem_allIx r _).mpr (by rw [hrow]; rfl)), by simp [keyAt, hrow, hk]⟩
  have hlast : (order.filter (fun ix => decide (keyAt r ix = some k))).getLast? = some (i, j) := by
    have hsub : (order.filter (fun ix => decide (keyAt r ix = some k))).Pairwise (fun a b => a.2 < b.2) := by
      have e : order.filter (fun ix => decide (keyAt r ix = some k)) =
          (order.filter (fun ix => ix.1 == i)).filter (fun ix => decide (keyAt r ix = some k)) := by
        rw [List.filter_filter]
        apply List.filter_congr
        intro ix _
        rw [Bool.eq_iff_iff]
        simp only [decide_eq_true_eq, Bool.and_eq_true, beq_iff_eq]
        exact ⟨fun h => ⟨h, (honly ix h).1⟩, fun h => h.1⟩
      rw [e]
      exact (hs.inBatch i).filter _
    have hle : ∀ x ∈ order.filter (fun ix => decide (keyAt r ix = some k)), x.1 = i ∧ x.2 ≤ j := by
      intro x hx
      rw [List.mem_filter] at hx
      exact honly x (of_decide_eq_true hx.2)
    generalize order.filter (fun ix => decide (keyAt r ix = some k)) = l at hmem hsub hle
    obtain ⟨a, b, rfl⟩ := List.append_of_mem hmem
    cases b with
    | nil => simp
    | cons x b =>
      exfalso
      have h1 := (List.pairwise_append.mp hsub).2.1
      rw [List.pairwise_cons] at h1
      have h2 := h1.1 x List.mem_cons_self
      have h3 := (hle x (by simp)).2
      simp only at h2
      omega
  have : buildMap r order (fun _ => none) k = some (i, j) := by rw [buildMap_eq, hlast]
  simp [fetched, fetch, this, hrow]

end Verif.Join
