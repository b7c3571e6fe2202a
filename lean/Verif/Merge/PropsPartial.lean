import Verif.Merge.LemmasPartial

/-!
# C59: merge insert with some of the columns

A source that has only some of the columns of the table changes just these columns of the matched rows, in place.
-/
namespace Verif.Merge
open Verif
open Verif.Read (Frag Row Opts Cell scanV2 readAll allRows liveRows liveOffsets rowAt live Splits)
open Verif.Update (idValue newFrags commitUpdate Table)
open Verif.Join (updateLoop Restorer deletedOf)

section Spec
variable {V : Type} [DecidableEq V]

/-- What a source row, whose columns are `cols`, says about a column of the table. -/
def cell (cols : List Nat) (s : Tuple V) (c : Nat) : Option V :=
  match cols.idxOf? c with
  | some i => s.getD i none
  | none => none

/-- The source row as a row of the table: null where it has no column. -/
def fullRow (cols : List Nat) (width : Nat) (s : Tuple V) : Tuple V := (List.range width).map (cell cols s)

/-- A row of the table with the columns of the source replaced. -/
def assign (cols : List Nat) (s t : Tuple V) : Tuple V :=
  (List.range t.length).map (fun c => if c ∈ cols then cell cols s c else t.getD c none)

/-- What becomes of a target row. -/
def patch (p : Params V) (cols : List Nat) (width : Nat) (src : List (Tuple V)) (t : Tuple V) : Tuple V :=
  match src.find? (fun s => decide (Matches p.on (fullRow cols width s) t)) with
  | some s => if Updates p (fullRow cols width s) t then assign cols s t else t
  | none => t

end Spec

/-- The order of row addresses: nulls first. -/
def addrLe : Option Nat → Option Nat → Prop
  | none, _ => True
  | some _, none => False
  | some a, some b => a ≤ b

/-- What is assumed of the environment: as in `Env.OK`; the sort sorts, and its batches have rows. -/
structure PEnv.OK {V : Type} (env : PEnv V) (p : Params V) (cols : List Nat) (width : Nat) (src : List (Tuple V)) :
    Prop where
  split : Splits env.split
  shuffle : ∀ l, (env.shuffle l).flatten.Perm l
  order : ∀ l, (env.order l).flatten.Perm l ∧ (env.order l).flatten.Pairwise (fun a b => addrLe a.1 b.1) ∧
    ∀ b ∈ env.order l, b ≠ []
  files : ∀ l, (env.files l).flatten = l
  done : ∀ l, (env.done l).Perm l
  seen : ∀ g, env.seen = some g → ∀ l, ∃ q : Tuple V → Bool, (g l).Perm (l.filter (fun r => q r.data)) ∧
    ∀ r ∈ l, (∃ s ∈ src, Matches p.on (fullRow cols width s) r.data) → q r.data = true

/-- What the job should leave: every old row where it was, with the same id and address, the columns of the source
replaced if it is updated; then the new rows; the statistics. -/
def Patched {V : Type} [DecidableEq V] (p : Params V) (cols : List Nat) (width : Nat) (src : List (Tuple V)) (o : Opts)
    (frags fs : List (Frag (Tuple V))) (st : Stats) : Prop :=
  ∃ rest, allRows o fs = (allRows o frags).map (fun r => { r with data := patch p cols width src r.data }) ++ rest ∧
    (rest.map (·.data)).Perm (inserts p (src.map (fullRow cols width)) ((allRows o frags).map (·.data))) ∧
    st.updated = (((allRows o frags).map (·.data)).filter (updated p (src.map (fullRow cols width)))).length ∧
    st.inserted = (inserts p (src.map (fullRow cols width)) ((allRows o frags).map (·.data))).length ∧
    st.deleted = 0

/-- C59, full statement. -/
def C59_statement : Prop :=
  ∀ (env : PEnv Nat) (p : Params Nat) (cols : List Nat) (width : Nat) (src : List (Tuple Nat))
    (frags : List (Frag (Tuple Nat))) (nextId : Nat) (nextRow : Option Nat) (o : Opts),
    env.OK p cols width src → Table frags nextId → p.valid = true → p.bySource = .keep →
    cols.Nodup → (∀ c ∈ cols, c < width) → (∀ c ∈ p.on, c ∈ cols) →
    (∀ s ∈ src, s.length = cols.length) → (∀ r ∈ allRows o frags, r.data.length = width) →
    (Unambiguous p (src.map (fullRow cols width)) ((allRows o frags).map (·.data)) →
      ∃ fs st, executePart env p cols width src frags nextId nextRow = .ok fs st ∧
        Patched p cols width src o frags fs st) ∧
    (¬ Unambiguous p (src.map (fullRow cols width)) ((allRows o frags).map (·.data)) →
      executePart env p cols width src frags nextId nextRow = .error)

/-! ## Where the code differs -/

/-- Sorting for the examples. -/
def sortAddr (l : List (Option Nat × Tuple Nat)) : List (Option Nat × Tuple Nat) :=
  sortBy (fun x => match x.1 with | none => 0 | some a => a + 1) l

def plainPEnv : PEnv Nat :=
  ⟨fun l => [l], none, fun l => [l], fun l => if l.isEmpty then [] else [sortAddr l], fun l => [l], id, none⟩

theorem plainPEnv_ok (p : Params Nat) (cols : List Nat) (width : Nat) (src : List (Tuple Nat)) :
    plainPEnv.OK p cols width src := by
  refine ⟨fun l => by simp [plainPEnv], fun l => by simp [plainPEnv], ?_, fun l => by simp [plainPEnv],
    fun _ => List.Perm.refl _, fun g h => nomatch h⟩
  intro l
  cases hl : l.isEmpty with
  | true =>
    have : l = [] := by simpa using hl
    subst this
    refine ⟨?_, ?_, ?_⟩ <;> simp [plainPEnv]
  | false =>
    have he : plainPEnv.order l = [sortAddr l] := by simp only [plainPEnv, hl]; rfl
    rw [he]
    have hp : (sortAddr l).Perm l := sortBy_perm _ _
    refine ⟨by simpa using hp, ?_, ?_⟩
    · have := sortBy_sorted (fun x : Option Nat × Tuple Nat => match x.1 with | none => 0 | some a => a + 1) l
      simp only [List.flatten_cons, List.flatten_nil, List.append_nil]
      apply List.Pairwise.imp _ this
      intro a b h
      obtain ⟨a, x⟩ := a
      obtain ⟨b, y⟩ := b
      cases a <;> cases b <;> simp_all [addrLe]
    · intro b hb
      simp only [List.mem_singleton] at hb
      rw [hb]
      intro h0
      rw [h0] at hp
      have := hp.symm.eq_nil
      rw [this] at hl
      cases hl

/-- The columns 0 (the key) and 1 of a table of three columns. -/
def three : List (Tuple Nat) := [[some 1, some 10, some 100], [some 2, some 20, some 200], [some 3, some 30, some 300]]

def updateOnly : Params Nat := ⟨[0], .updateAll, false, .keep⟩

/-- A condition on the update panics whatever the data is. -/
theorem C59_update_if_panics :
    dataOf (executePart plainPEnv ⟨[0], .updateIf (fun _ _ => some true), false, .keep⟩ [0, 1] 3 [[some 1, some 11]]
      [fragOf three] 1 none) = none := by decide +kernel

/-- Two source rows with one key, in a fragment of two rows: there are as many updates as rows, so they become the new
columns of the fragment — the key and the value of the other row are overwritten. -/
theorem C59_duplicates_overwrite :
    dataOf (executePart plainPEnv updateOnly [0, 1] 3 [[some 1, some 11], [some 1, some 12]]
      [fragOf (three.take 2)] 1 none) =
      some ([[some 1, some 11, some 100], [some 1, some 12, some 200]], ⟨0, 2, 0⟩) := by decide +kernel

/-- Two source rows with one key, in a larger fragment: the second one blocks the iterator, and the update of the third row
is lost (it is counted). -/
theorem C59_duplicates_lose_updates :
    dataOf (executePart { plainPEnv with split := fun l => [l] } updateOnly [0, 1] 3
      [[some 1, some 11], [some 1, some 12], [some 3, some 31]] [fragOf (three ++ [[some 4, some 40, some 400]])] 1 none) =
      some ([[some 1, some 11, some 100], [some 2, some 20, some 200], [some 3, some 30, some 300],
        [some 4, some 40, some 400]], ⟨0, 3, 0⟩) := by decide +kernel

/-- A source that has the key not in its first column: a null in the first column hides the row. -/
theorem C59_null_in_first_column :
    dataOf (executePart plainPEnv updateOnly [1, 0] 3 [[none, some 2]] [fragOf three] 1 none) =
      some (three, ⟨0, 0, 0⟩) ∧
    patch updateOnly [1, 0] 3 [[none, some 2]] [some 2, some 20, some 200] = [some 2, none, some 200] := by
  refine ⟨by decide +kernel, by decide +kernel⟩

theorem C59_violated : ¬ C59_statement := by
  intro h
  have h1 := (h plainPEnv ⟨[0], .updateIf (fun _ _ => some true), false, .keep⟩ [0, 1] 3 [[some 1, some 11]] [fragOf three] 1
    none ⟨false, false, false⟩ (plainPEnv_ok _ _ _ _) (fragOf_table _ (by decide)) (by decide) rfl (by decide) (by decide)
    (by decide) (by decide) (by decide +kernel)).1 (by unfold Unambiguous; decide +kernel)
  obtain ⟨fs, st, h1, _⟩ := h1
  have h2 := C59_update_if_panics
  rw [h1] at h2
  cases h2

/-! ## What holds -/

section
variable {V : Type} [DecidableEq V]

omit [DecidableEq V] in
theorem srcVal_eq (cols : List Nat) (s : Tuple V) (c : Nat) : srcVal cols s c = cell cols s c := by
  unfold srcVal cell
  induction cols generalizing s with
  | nil => simp
  | cons k cols ih =>
    cases s with
    | nil =>
      simp only [List.zip_nil_right, List.lookup_nil, Option.getD_none]
      cases (k :: cols).idxOf? c <;> simp
    | cons x s =>
      rw [List.zip_cons_cons, List.lookup_cons, List.idxOf?_cons]
      by_cases hk : c = k
      · subst hk; simp
      · have h1 : (c == k) = false := by simpa using hk
        have h2 : (k == c) = false := by simpa using fun e => hk e.symm
        rw [h1, h2]
        simp only [Bool.false_eq_true, if_false]
        rw [ih s]
        cases cols.idxOf? c <;> simp

omit [DecidableEq V] in
theorem wide_eq (cols : List Nat) (width : Nat) (s : Tuple V) : wide cols width s = fullRow cols width s := by
  unfold wide fullRow
  apply List.map_congr_left
  intro c _
  exact srcVal_eq cols s c

omit [DecidableEq V] in
theorem overlay_eq (cols : List Nat) (s t : Tuple V) : overlay cols s t = assign cols s t := by
  apply List.ext_getElem
  · simp [overlay, assign]
  · intro i h1 h2
    simp only [overlay, assign, List.length_map, List.length_zipIdx, List.length_range] at h1 h2
    simp only [overlay, assign, List.getElem_map, List.getElem_zipIdx, List.getElem_range, Nat.zero_add, srcVal_eq,
      List.contains_iff_mem]
    rw [List.getD_eq_getElem?_getD, List.getElem?_eq_getElem h1]
    rfl

omit [DecidableEq V] in
theorem assign_proj (cols : List Nat) (t : Tuple V) : assign cols (proj cols t) t = t := by
  apply List.ext_getElem
  · simp [assign]
  · intro i h1 h2
    simp only [assign, List.getElem_map, List.getElem_range]
    have hg : t.getD i none = t[i] := by rw [List.getD_eq_getElem?_getD, List.getElem?_eq_getElem h2]; rfl
    split
    · rename_i hc
      unfold cell
      cases hi : cols.idxOf? i with
      | none => exact absurd hc (by simpa using hi)
      | some j =>
        simp only
        have hj : cols[j]? = some i := by
          rw [List.idxOf?, List.findIdx?_eq_some_iff_getElem] at hi
          obtain ⟨hl, he, _⟩ := hi
          rw [List.getElem?_eq_getElem hl]
          simpa using he
        unfold proj
        rw [List.getD_eq_getElem?_getD, List.getElem?_map, hj]
        exact hg
    · exact hg

/-- Without a condition the update depends on the options only. -/
def upd (p : Params V) : Bool := match p.matched with | .doNothing => false | _ => true

omit [DecidableEq V] in
theorem Updates_upd (p : Params V) (hm : ∀ c, p.matched ≠ .updateIf c) (s t : Tuple V) : Updates p s t ↔ upd p = true := by
  unfold Updates upd
  cases h : p.matched with
  | doNothing => simp
  | updateAll => simp
  | updateIf c => exact absurd h (hm c)

omit [DecidableEq V] in
theorem updates_upd (p : Params V) (hm : ∀ c, p.matched ≠ .updateIf c) (s t : Tuple V) : updates p s t = upd p := by
  unfold updates upd
  cases h : p.matched with
  | doNothing => rfl
  | updateAll => rfl
  | updateIf c => exact absurd h (hm c)

/-- A column of the first `k` of `cs` is not null. -/
def Shows (k : Nat) (cs : List Nat) (t : Tuple V) : Prop := ∃ c ∈ cs.take k, t.getD c none ≠ none

omit [DecidableEq V] in
theorem shows_proj (k : Nat) (cs : List Nat) (t : Tuple V) (h : Shows k cs t) : notAllNull k (proj cs t) = true := by
  obtain ⟨c, hc, hn⟩ := h
  unfold notAllNull proj
  rw [← List.map_take, List.any_map, List.any_eq_true]
  refine ⟨c, hc, ?_⟩
  show (t.getD c none).isSome = true
  cases hx : t.getD c none with
  | none => exact absurd hx hn
  | some v => rfl

/-- Source rows that match a target row. -/
def partners (p : Params V) (cols : List Nat) (width : Nat) (src : List (Tuple V)) (t : Tuple V) : List (Tuple V) :=
  src.filter (fun s => decide (Matches p.on (fullRow cols width s) t) && upd p)

/-- Source rows to be inserted, as they come. -/
def newcomers (p : Params V) (cols : List Nat) (width : Nat) (src : List (Tuple V)) (tgt : List (Tuple V)) :
    List (Tuple V) :=
  if p.insert then src.filter (fun s => decide (∀ t ∈ tgt, ¬ Matches p.on (fullRow cols width s) t)) else []

theorem newcomers_full (p : Params V) (cols : List Nat) (width : Nat) (src tgt : List (Tuple V)) :
    (newcomers p cols width src tgt).map (fullRow cols width) = inserts p (src.map (fullRow cols width)) tgt := by
  unfold newcomers inserts
  split
  · rw [List.filter_map]; rfl
  · rfl

theorem partJoin_upd (p : Params V) (hm : ∀ c, p.matched ≠ .updateIf c) (nullEq kl kr : Bool) (cols tcols : List Nat)
    (w : Nat) (src : List (Tuple V)) (tgt : List (Row (Tuple V)))
    (hs : ∀ s ∈ src, notAllNull p.on.length s = true)
    (ht : ∀ t ∈ tgt, notAllNull p.on.length (proj tcols t.data) = true) :
    ((partJoin nullEq kl kr p.on cols tcols w src tgt).filter (updSel p)).map (fun j => (j.id, j.left)) =
      src.flatMap (fun s => (tgt.filter (fun t => joins nullEq p.on (fullRow cols w s) t.data && upd p)).map
        (fun t => (some (idValue t.addr), s))) := by
  unfold partJoin
  rw [List.filter_append, List.filter_append]
  have e2 : (if kl = true then (src.filter (fun s => !tgt.any (fun t => joins nullEq p.on (wide cols w s) t.data))).map
      (fun s => (⟨s, nulls V cols.length, none⟩ : JRow V)) else []).filter (updSel p) = [] := by
    rw [List.filter_eq_nil_iff]
    intro j hj
    split at hj
    · obtain ⟨s, _, e⟩ := List.mem_map.mp hj
      subst e
      simp [updSel, inBoth, notAllNull_nulls]
    · cases hj
  have e3 : (if kr = true then (tgt.filter (fun t => !src.any (fun s => joins nullEq p.on (wide cols w s) t.data))).map
      (fun t => (⟨nulls V cols.length, proj tcols t.data, some (idValue t.addr)⟩ : JRow V)) else []).filter (updSel p) = [] := by
    rw [List.filter_eq_nil_iff]
    intro j hj
    split at hj
    · obtain ⟨s, _, e⟩ := List.mem_map.mp hj
      subst e
      simp [updSel, inBoth, notAllNull_nulls]
    · cases hj
  rw [e2, e3, List.append_nil, List.append_nil, List.filter_flatMap, List.map_flatMap]
  apply flatMap_congr'
  intro s hms
  rw [List.filter_map, List.filter_filter, List.map_map]
  show List.map (fun t : Row (Tuple V) => (some (idValue t.addr), s)) _ = _
  congr 1
  apply List.filter_congr
  intro t hmt
  show (updSel p ⟨s, proj tcols t.data, _⟩ && _) = _
  rw [updSel_pair p s _ _ (hs s hms) (ht t hmt), updates_upd p hm, Bool.and_comm, wide_eq]

omit [DecidableEq V] in
theorem insSel_left (p : Params V) (w : Nat) (s : Tuple V) (hs : notAllNull p.on.length s = true) :
    insSel p ⟨s, nulls V w, none⟩ = p.insert := by
  simp [insSel, leftOnly, notAllNull_nulls, hs]

theorem partJoin_ins (p : Params V) (nullEq kl kr : Bool) (hkl : p.insert = true → kl = true) (cols tcols : List Nat)
    (w : Nat) (src : List (Tuple V)) (tgt : List (Row (Tuple V)))
    (hs : ∀ s ∈ src, notAllNull p.on.length s = true)
    (ht : ∀ t ∈ tgt, notAllNull p.on.length (proj tcols t.data) = true) :
    ((partJoin nullEq kl kr p.on cols tcols w src tgt).filter (insSel p)).map (fun j => (j.id, j.left)) =
      (if p.insert then src.filter (fun s => !tgt.any (fun t => joins nullEq p.on (fullRow cols w s) t.data)) else []).map
        (fun s => (none, s)) := by
  unfold partJoin
  rw [List.filter_append, List.filter_append]
  have e1 : (src.flatMap (fun s => (tgt.filter (fun t => joins nullEq p.on (wide cols w s) t.data)).map
      (fun t => (⟨s, proj tcols t.data, some (idValue t.addr)⟩ : JRow V)))).filter (insSel p) = [] := by
    rw [List.filter_eq_nil_iff]
    intro j hj
    obtain ⟨s, _, hj⟩ := List.mem_flatMap.mp hj
    obtain ⟨t, hmt, e⟩ := List.mem_map.mp hj
    subst e
    simp [insSel, leftOnly, ht t (List.mem_filter.mp hmt).1]
  have e3 : (if kr = true then (tgt.filter (fun t => !src.any (fun s => joins nullEq p.on (wide cols w s) t.data))).map
      (fun t => (⟨nulls V cols.length, proj tcols t.data, some (idValue t.addr)⟩ : JRow V)) else []).filter (insSel p) = [] := by
    rw [List.filter_eq_nil_iff]
    intro j hj
    split at hj
    · obtain ⟨s, _, e⟩ := List.mem_map.mp hj
      subst e
      simp [insSel, leftOnly, notAllNull_nulls]
    · cases hj
  rw [e1, e3, List.nil_append, List.append_nil]
  cases hi : p.insert with
  | false =>
    have : (if kl = true then (src.filter (fun s => !tgt.any (fun t => joins nullEq p.on (wide cols w s) t.data))).map
        (fun s => (⟨s, nulls V cols.length, none⟩ : JRow V)) else []).filter (insSel p) = [] := by
      rw [List.filter_eq_nil_iff]
      intro j _
      simp [insSel, hi]
    rw [this]; rfl
  | true =>
    rw [if_pos (hkl hi), if_pos rfl, List.filter_eq_self.mpr, List.map_map]
    · show List.map (fun s => (none, s)) _ = _
      congr 1
      apply List.filter_congr
      intro s _
      rw [wide_eq]
    · intro j hj
      obtain ⟨s, hms, e⟩ := List.mem_map.mp hj
      subst e
      rw [insSel_left p _ s (hs s (List.mem_filter.mp hms).1), hi]

/-- The rows that reach `update_fragments`. -/
def toWrite (p : Params V) (cols : List Nat) (width : Nat) (src : List (Tuple V)) (tgt : List (Row (Tuple V))) :
    List (Option Nat × Tuple V) :=
  tgt.flatMap (fun t => (partners p cols width src t.data).map (fun s => (some (idValue t.addr), s))) ++
    (newcomers p cols width src (tgt.map (·.data))).map (fun s => (none, s))

theorem pairs_swap (p : Params V) (cols : List Nat) (width : Nat) (src : List (Tuple V)) (tgt : List (Row (Tuple V))) :
    (src.flatMap (fun s => (tgt.filter (fun t => decide (Matches p.on (fullRow cols width s) t.data) && upd p)).map
      (fun t => (some (idValue t.addr), s)))).Perm
    (tgt.flatMap (fun t => (partners p cols width src t.data).map (fun s => (some (idValue t.addr), s)))) := by
  have e1 : ∀ s ∈ src, (tgt.filter (fun t => decide (Matches p.on (fullRow cols width s) t.data) && upd p)).map
      (fun t => (some (idValue t.addr), s)) =
      tgt.flatMap (fun t => if decide (Matches p.on (fullRow cols width s) t.data) && upd p then [(some (idValue t.addr), s)] else []) :=
    fun s _ => map_filter_eq_flatMap (fun t : Row (Tuple V) => decide (Matches p.on (fullRow cols width s) t.data) && upd p)
      (fun t => (some (idValue t.addr), s)) tgt
  rw [flatMap_congr' e1]
  refine (flatMap_swap _ _ _).trans (List.Perm.of_eq ?_)
  apply flatMap_congr'
  intro t _
  unfold partners
  exact (map_filter_eq_flatMap _ (fun s => (some (idValue t.addr), s)) _).symm

theorem joinedPart_spec (env : PEnv V) (p : Params V) (hm : ∀ c, p.matched ≠ .updateIf c) (cols : List Nat) (w : Nat)
    (src : List (Tuple V)) (tgt : List (Row (Tuple V)))
    (hseen : ∀ g, env.seen = some g → ∀ l, ∃ q : Tuple V → Bool, (g l).Perm (l.filter (fun r => q r.data)) ∧
      ∀ r ∈ l, (∃ s ∈ src, Matches p.on (fullRow cols w s) r.data) → q r.data = true)
    (hkeys : env.seen ≠ none → ∀ s ∈ src, ∀ c ∈ p.on, (fullRow cols w s).getD c none ≠ none)
    (hs : ∀ s ∈ src, notAllNull p.on.length s = true)
    (ht : ∀ t ∈ tgt, Shows p.on.length cols t.data)
    (ht' : env.seen ≠ none → ∀ t ∈ tgt, Shows p.on.length ((List.range w).filter (fun c => cols.contains c)) t.data) :
    (((joinedPart env p cols w src tgt).filter (updSel p)).map (fun j => (j.id, j.left)) ++
      ((joinedPart env p cols w src tgt).filter (insSel p)).map (fun j => (j.id, j.left))).Perm
      (toWrite p cols w src tgt) ∧
    ((joinedPart env p cols w src tgt).filter (updSel p)).length =
      (tgt.flatMap (fun t => partners p cols w src t.data)).length ∧
    ((joinedPart env p cols w src tgt).filter (insSel p)).length = (newcomers p cols w src (tgt.map (·.data))).length := by
  suffices h : (((joinedPart env p cols w src tgt).filter (updSel p)).map (fun j => (j.id, j.left))).Perm
        (src.flatMap (fun s => (tgt.filter (fun t => decide (Matches p.on (fullRow cols w s) t.data) && upd p)).map
          (fun t => (some (idValue t.addr), s)))) ∧
      ((joinedPart env p cols w src tgt).filter (insSel p)).map (fun j => (j.id, j.left)) =
        (newcomers p cols w src (tgt.map (·.data))).map (fun s => (none, s)) by
    obtain ⟨h1, h2⟩ := h
    have h1 := h1.trans (pairs_swap p cols w src tgt)
    refine ⟨h1.append (List.Perm.of_eq h2), ?_, ?_⟩
    · have := h1.length_eq
      rw [List.length_map] at this
      rw [this, List.length_flatMap, List.length_flatMap]
      simp
    · have := congrArg List.length h2
      rw [List.length_map, List.length_map] at this
      exact this
  have full : ∀ kl kr, (p.insert = true → kl = true) →
      (((partJoin false kl kr p.on cols cols w src tgt).filter (updSel p)).map (fun j => (j.id, j.left))).Perm
        (src.flatMap (fun s => (tgt.filter (fun t => decide (Matches p.on (fullRow cols w s) t.data) && upd p)).map
          (fun t => (some (idValue t.addr), s)))) ∧
      ((partJoin false kl kr p.on cols cols w src tgt).filter (insSel p)).map (fun j => (j.id, j.left)) =
        (newcomers p cols w src (tgt.map (·.data))).map (fun s => (none, s)) := by
    intro kl kr hkl
    have hp := fun t hmt => shows_proj _ _ _ (ht t hmt)
    rw [partJoin_upd p hm false kl kr cols cols w src tgt hs hp, partJoin_ins p false kl kr hkl cols cols w src tgt hs hp]
    constructor
    · apply List.Perm.of_eq
      apply flatMap_congr'
      intro s _
      congr 1
      apply List.filter_congr
      intro t _
      congr 1
      rw [Bool.eq_iff_iff, joins_iff, decide_eq_true_iff]
    · congr 1
      unfold newcomers
      congr 1
      apply List.filter_congr
      intro s _
      rw [Bool.eq_iff_iff, Bool.not_eq_true', List.any_eq_false, decide_eq_true_iff]
      simp only [joins_iff, List.mem_map, forall_exists_index, and_imp, forall_apply_eq_imp_iff₂]
  unfold joinedPart
  cases hse : env.seen with
  | none => exact full _ _ id
  | some g =>
    simp only
    by_cases hl : p.on.length = 1
    · rw [if_pos hl]
      obtain ⟨q, hq, hmem⟩ := hseen g hse tgt
      have hne : env.seen ≠ none := by rw [hse]; exact Option.some_ne_none g
      have hk := hkeys hne
      have hsub : ∀ t, t ∈ g tgt ↔ t ∈ tgt ∧ q t.data = true := by
        intro t
        rw [hq.mem_iff, List.mem_filter]
      have hp := fun t (hmt : t ∈ g tgt) => shows_proj _ _ _ (ht' hne t ((hsub t).mp hmt).1)
      rw [partJoin_upd p hm true true true cols _ w src (g tgt) hs hp,
        partJoin_ins p true true true (fun _ => rfl) cols _ w src (g tgt) hs hp]
      constructor
      · apply flatMap_perm_congr
        intro s hms
        apply List.Perm.map
        refine (hq.filter _).trans ?_
        rw [List.filter_filter]
        apply List.Perm.of_eq
        apply List.filter_congr
        intro t hmt
        rw [Bool.eq_iff_iff, Bool.and_eq_true, Bool.and_eq_true, Bool.and_eq_true, joins_true_iff _ _ _ (hk s hms),
          decide_eq_true_iff]
        exact ⟨fun h => h.1, fun h => ⟨h, hmem t hmt ⟨s, hms, h.1⟩⟩⟩
      · congr 1
        unfold newcomers
        congr 1
        apply List.filter_congr
        intro s hms
        rw [Bool.eq_iff_iff, Bool.not_eq_true', List.any_eq_false, decide_eq_true_iff]
        simp only [joins_true_iff _ _ _ (hk s hms), List.mem_map, forall_exists_index, and_imp,
          forall_apply_eq_imp_iff₂, hsub]
        constructor
        · intro h t hmt hmatch
          exact h t hmt (hmem t hmt ⟨s, hms, hmatch⟩) hmatch
        · intro h t hmt _
          exact h t hmt
    · rw [if_neg hl]
      exact full _ _ id


theorem mergePart_spec (p : Params V) (hm : ∀ c, p.matched ≠ .updateIf c) (bs : List (List (JRow V))) :
    ∃ W, mergePart p bs = some (W, ⟨(bs.flatten.filter (insSel p)).length, (bs.flatten.filter (updSel p)).length, 0⟩) ∧
      W.Perm ((bs.flatten.filter (updSel p)).map (fun j => (j.id, j.left)) ++
        (bs.flatten.filter (insSel p)).map (fun j => (j.id, j.left))) := by
  refine ⟨bs.flatMap (fun b => (matchedRows p b).map (fun j => (j.id, j.left)) ++
      (insertedRows p b).map (fun j => (j.id, j.left))), ?_, ?_⟩
  · have hst : (⟨(bs.map (fun b => (insertedRows p b).length)).sum, (bs.map (fun b => (matchedRows p b).length)).sum, 0⟩ : Stats) =
        ⟨(bs.flatten.filter (insSel p)).length, (bs.flatten.filter (updSel p)).length, 0⟩ := by
      congr 1
      · induction bs with
        | nil => rfl
        | cons b bs ih => simp [insertedRows_eq] at ih ⊢; omega
      · induction bs with
        | nil => rfl
        | cons b bs ih => simp [matchedRows_eq] at ih ⊢; omega
    rw [← hst]
    unfold mergePart
    cases h : p.matched with
    | updateIf c => exact absurd h (hm c)
    | doNothing => rfl
    | updateAll => rfl
  · refine (flatMap_append_perm _ _ bs).trans (List.Perm.of_eq ?_)
    congr 1
    · rw [List.filter_flatten, List.map_flatten, List.map_map, List.flatMap_def]
      congr 1
      apply List.map_congr_left
      intro b _
      rw [matchedRows_eq]; rfl
    · rw [List.filter_flatten, List.map_flatten, List.map_map, List.flatMap_def]
      congr 1
      apply List.map_congr_left
      intro b _
      rw [insertedRows_eq]; rfl

omit [DecidableEq V] in
theorem mem_allRows {o : Opts} {frags : List (Frag (Tuple V))} {r : Row (Tuple V)} :
    r ∈ allRows o frags ↔ ∃ f ∈ frags, ∃ off ∈ liveOffsets f, r = rowAt f o off := by
  unfold allRows liveRows
  rw [List.mem_flatMap]
  constructor
  · rintro ⟨f, hf, h⟩
    obtain ⟨off, ho, e⟩ := List.mem_map.mp h
    exact ⟨f, hf, off, ho, e.symm⟩
  · rintro ⟨f, hf, off, ho, e⟩
    exact ⟨f, hf, List.mem_map.mpr ⟨off, ho, e.symm⟩⟩

omit [DecidableEq V] in
theorem addrs_sorted {frags : List (Frag (Tuple V))} {nextId : Nat} (ht : Table frags nextId) :
    (allRows ⟨true, true, false⟩ frags).Pairwise (fun a b => idValue a.addr < idValue b.addr) := by
  unfold allRows
  rw [List.pairwise_flatMap]
  constructor
  · intro f _
    unfold liveRows
    rw [List.pairwise_map]
    apply (live_sorted f).imp
    intro a b h
    show f.id * 4294967296 + a < f.id * 4294967296 + b
    omega
  · apply List.Pairwise.imp_of_mem (R := fun f g : Frag (Tuple V) => f.id < g.id) _ ht.sorted
    intro f g hf hg h a ha b hb
    obtain ⟨x, hx, e1⟩ := List.mem_map.mp ha
    obtain ⟨y, hy, e2⟩ := List.mem_map.mp hb
    have := Update.liveOffsets_lt hx
    have := (ht.ok f hf).rows
    rw [← e1, ← e2]
    show f.id * 4294967296 + x < g.id * 4294967296 + y
    omega

/-- Numbers for the keys of groups. -/
def keyNum : Option Nat → Nat
  | none => 0
  | some a => a + 1

theorem keyNum_inj (a b : Option Nat) (h : keyNum a = keyNum b) : a = b := by
  cases a <;> cases b <;> simp [keyNum] at h ⊢
  omega

/-- The updates for a fragment among the sorted rows. -/
def updsFor (S : List (Option Nat × Tuple V)) (id : Nat) : List (Nat × Tuple V) :=
  ((S.map keyed).filter (fun x => decide (x.1 = some id))).map (·.2)

omit [DecidableEq V] in
theorem mem_updsFor (S : List (Option Nat × Tuple V)) (id a : Nat) (s : Tuple V) :
    (a, s) ∈ updsFor S id ↔ (some a, s) ∈ S ∧ a / 4294967296 = id := by
  unfold updsFor
  simp only [List.mem_map, List.mem_filter, decide_eq_true_eq]
  constructor
  · rintro ⟨y, ⟨⟨x, hx, e⟩, hk⟩, e2⟩
    obtain ⟨xa, xs⟩ := x
    rw [← e] at hk e2
    cases xa with
    | none => simp [keyed] at hk
    | some b =>
      simp [keyed] at hk e2
      rw [← e2.1, ← e2.2]
      exact ⟨hx, hk⟩
  · rintro ⟨hx, hk⟩
    exact ⟨keyed (some a, s), ⟨⟨(some a, s), hx, rfl⟩, by simp [keyed, hk]⟩, rfl⟩

/-- Everything there is to know about the sorted rows. -/
theorem sorted_spec (p : Params V) (cols : List Nat) (w : Nat) (src : List (Tuple V)) {frags : List (Frag (Tuple V))}
    {nextId : Nat} (ht : Table frags nextId) (S : List (Option Nat × Tuple V))
    (hS : S.Perm (toWrite p cols w src (allRows ⟨true, true, false⟩ frags)))
    (hso : S.Pairwise (fun a b => addrLe a.1 b.1))
    (hun : ∀ t ∈ allRows ⟨true, true, false⟩ frags, (partners p cols w src t.data).length ≤ 1) :
    (∀ a s, (some a, s) ∈ S ↔ ∃ f ∈ frags, ∃ off ∈ liveOffsets f, s ∈ partners p cols w src (f.file off) ∧
      a = f.id * 4294967296 + off) ∧
    (∀ id, (updsFor S id).Pairwise (fun a b => a.1 < b.1)) ∧
    (∀ f ∈ frags, ∀ u ∈ updsFor S f.id, ∃ off ∈ liveOffsets f, u.1 = f.id * 4294967296 + off) ∧
    (∀ f ∈ frags, ∀ off ∈ liveOffsets f, (updsFor S f.id).lookup (f.id * 4294967296 + off) =
      (partners p cols w src (f.file off)).head?) := by
  have m1 : ∀ a s, (some a, s) ∈ S ↔ ∃ f ∈ frags, ∃ off ∈ liveOffsets f, s ∈ partners p cols w src (f.file off) ∧
      a = f.id * 4294967296 + off := by
    intro a s
    rw [hS.mem_iff]
    unfold toWrite
    rw [List.mem_append, List.mem_flatMap]
    constructor
    · rintro (⟨t, hmt, h⟩ | h)
      · obtain ⟨f, hf, off, ho, e⟩ := mem_allRows.mp hmt
        obtain ⟨s', hs', e'⟩ := List.mem_map.mp h
        simp only [Prod.mk.injEq, Option.some.injEq] at e'
        refine ⟨f, hf, off, ho, ?_, ?_⟩
        · rw [← e'.2]
          rw [e] at hs'
          exact hs'
        · rw [← e'.1, e]; rfl
      · obtain ⟨s', _, e'⟩ := List.mem_map.mp h
        cases e'
    · rintro ⟨f, hf, off, ho, hs', e⟩
      left
      refine ⟨rowAt f ⟨true, true, false⟩ off, mem_allRows.mpr ⟨f, hf, off, ho, rfl⟩, ?_⟩
      rw [List.mem_map]
      exact ⟨s, hs', by rw [e]; rfl⟩
  have hA : (S.filterMap (·.1)).Nodup := by
    have hp := hS.filterMap (·.1)
    refine hp.nodup_iff.mpr ?_
    unfold toWrite
    rw [List.filterMap_append]
    have e2 : ((newcomers p cols w src ((allRows ⟨true, true, false⟩ frags).map (·.data))).map
        (fun s => ((none : Option Nat), s))).filterMap (·.1) = [] := by
      rw [List.filterMap_map]
      simp
    rw [e2, List.append_nil, List.filterMap_flatMap]
    apply List.Pairwise.imp (R := (· < ·))
    · intro a b h; exact Nat.ne_of_lt h
    · rw [List.pairwise_flatMap]
      have hone : ∀ t : Row (Tuple V), ((partners p cols w src t.data).map (fun s => (some (idValue t.addr), s))).filterMap
          (fun x => x.1) = (partners p cols w src t.data).map (fun _ => idValue t.addr) := by
        intro t
        rw [List.filterMap_map]
        induction partners p cols w src t.data with
        | nil => rfl
        | cons x l ih => simp [ih] at ih ⊢
      constructor
      · intro t hmt
        rw [hone]
        have := hun t hmt
        cases hx : partners p cols w src t.data with
        | nil => exact List.Pairwise.nil
        | cons x l =>
          rw [hx] at this
          cases l with
          | nil => exact List.pairwise_singleton _ _
          | cons y l => simp at this
      · apply List.Pairwise.imp _ (addrs_sorted ht)
        intro t t' h a ha b hb
        rw [hone] at ha hb
        obtain ⟨_, _, e1⟩ := List.mem_map.mp ha
        obtain ⟨_, _, e2⟩ := List.mem_map.mp hb
        omega
  have hlt : S.Pairwise (fun x y => ∀ a b, x.1 = some a → y.1 = some b → a < b) := by
    have h1 : S.Pairwise (fun x y => ∀ a, x.1 = some a → ∀ b, y.1 = some b → a ≠ b) := by
      rw [List.Nodup, List.pairwise_filterMap] at hA
      exact hA
    apply (hso.and h1).imp
    rintro x y ⟨h2, h3⟩ a b ha hb
    have := h3 a ha b hb
    rw [ha, hb] at h2
    have h2 : a ≤ b := h2
    omega
  have hsorted : ∀ id, (updsFor S id).Pairwise (fun a b => a.1 < b.1) := by
    intro id
    unfold updsFor
    rw [List.pairwise_map, List.pairwise_filter, List.pairwise_map]
    apply hlt.imp
    intro x y h hx hy
    obtain ⟨xa, xs⟩ := x
    obtain ⟨ya, ys⟩ := y
    cases xa with
    | none => simp [keyed] at hx
    | some a =>
      cases ya with
      | none => simp [keyed] at hy
      | some b => exact h a b rfl rfl
  have hmem : ∀ f ∈ frags, ∀ a s, (a, s) ∈ updsFor S f.id ↔ ∃ off ∈ liveOffsets f, s ∈ partners p cols w src (f.file off) ∧
      a = f.id * 4294967296 + off := by
    intro f hf a s
    rw [mem_updsFor, m1]
    constructor
    · rintro ⟨⟨g, hg, off, ho, h1, h2⟩, h3⟩
      have := Update.liveOffsets_lt ho
      have := (ht.ok g hg).rows
      have hfg : f = g := Update.eq_of_id ht.sorted hf hg (by omega)
      subst hfg
      exact ⟨off, ho, h1, h2⟩
    · rintro ⟨off, ho, h1, h2⟩
      have := Update.liveOffsets_lt ho
      have := (ht.ok f hf).rows
      exact ⟨⟨f, hf, off, ho, h1, h2⟩, by omega⟩
  refine ⟨m1, hsorted, ?_, ?_⟩
  · intro f hf u hu
    obtain ⟨off, ho, _, e⟩ := (hmem f hf u.1 u.2).mp hu
    exact ⟨off, ho, e⟩
  · intro f hf off ho
    cases hx : (partners p cols w src (f.file off)).head? with
    | none =>
      rw [List.lookup_eq_none_iff]
      intro u hu
      obtain ⟨off', ho', h1, h2⟩ := (hmem f hf u.1 u.2).mp hu
      have hne : off ≠ off' := by
        intro e
        rw [← e] at h1
        have : partners p cols w src (f.file off) = [] := by simpa using hx
        rw [this] at h1
        cases h1
      simp
      omega
    | some s =>
      have : s ∈ partners p cols w src (f.file off) := List.mem_of_mem_head? (by rw [hx]; rfl)
      exact lookup_of_mem _ (hsorted f.id) (f.id * 4294967296 + off, s) ((hmem f hf _ _).mpr ⟨off, ho, this, rfl⟩)

/-- The new row is what the specification says. -/
theorem overlay_patch (p : Params V) (hm : ∀ c, p.matched ≠ .updateIf c) (cols : List Nat) (w : Nat) (src : List (Tuple V))
    (t : Tuple V) :
    overlay cols (((partners p cols w src t).head?).getD (proj cols t)) t = patch p cols w src t := by
  rw [overlay_eq]
  unfold patch partners
  rw [List.head?_filter]
  cases hu : upd p with
  | false =>
    simp only [Bool.and_false]
    rw [List.find?_eq_none.mpr (by simp)]
    simp only [Option.getD_none, assign_proj]
    cases src.find? (fun s => decide (Matches p.on (fullRow cols w s) t)) with
    | none => rfl
    | some s =>
      simp only
      rw [if_neg]
      rw [Updates_upd p hm, hu]
      simp
  | true =>
    simp only [Bool.and_true]
    cases src.find? (fun s => decide (Matches p.on (fullRow cols w s) t)) with
    | none => simp only [Option.getD_none, assign_proj]
    | some s =>
      simp only [Option.getD_some]
      rw [if_pos ((Updates_upd p hm _ _).mpr hu)]

theorem partners_length (p : Params V) (cols : List Nat) (w : Nat) (src : List (Tuple V)) (t : Tuple V)
    (h : ((src.map (fullRow cols w)).filter (fun s => decide (Matches p.on s t))).length ≤ 1) :
    (partners p cols w src t).length ≤ 1 := by
  refine Nat.le_trans ?_ h
  rw [List.filter_map, List.length_map]
  unfold partners
  have : src.filter (fun s => decide (Matches p.on (fullRow cols w s) t) && upd p) =
      (src.filter (fun s => decide (Matches p.on (fullRow cols w s) t))).filter (fun _ => upd p) := by
    rw [List.filter_filter]
    apply List.filter_congr
    intro s _
    rw [Bool.and_comm]
  rw [this]
  exact List.length_filter_le _ _

theorem partners_full (p : Params V) (hm : ∀ c, p.matched ≠ .updateIf c) (cols : List Nat) (w : Nat) (src : List (Tuple V))
    (t : Tuple V) :
    (partners p cols w src t).length =
      ((src.map (fullRow cols w)).filter (fun s => decide (Matches p.on s t ∧ Updates p s t))).length := by
  rw [List.filter_map, List.length_map]
  unfold partners
  congr 1
  apply List.filter_congr
  intro s _
  show _ = decide (Matches p.on (fullRow cols w s) t ∧ Updates p (fullRow cols w s) t)
  rw [Bool.eq_iff_iff, Bool.and_eq_true, decide_eq_true_iff, decide_eq_true_iff, Updates_upd p hm]

/-- The hypotheses of the theorems below: no condition on the update; a value among the first |on| columns of each side; with
an index no null key in the source; no two partners. -/
structure Plain (env : PEnv V) (p : Params V) (cols : List Nat) (width : Nat) (src tgt : List (Tuple V)) : Prop where
  noCondition : ∀ c, p.matched ≠ .updateIf c
  source : ∀ s ∈ src, ∃ c v, c < p.on.length ∧ s.getD c none = some v
  target : ∀ t ∈ tgt, Shows p.on.length cols t
  indexedTarget : env.seen ≠ none → ∀ t ∈ tgt, Shows p.on.length ((List.range width).filter (fun c => cols.contains c)) t
  indexedSource : env.seen ≠ none → ∀ s ∈ src, ∀ c ∈ p.on, (fullRow cols width s).getD c none ≠ none
  unambiguous : Unambiguous p (src.map (fullRow cols width)) tgt

/-- The run up to the fragments. -/
theorem executePart_reach (env : PEnv V) (p : Params V) (cols : List Nat) (width : Nat) (src : List (Tuple V))
    (frags : List (Frag (Tuple V))) (nextId : Nat) (nextRow : Option Nat)
    (henv : env.OK p cols width src) (ht : Table frags nextId) (hv : p.valid = true) (hk : p.bySource = .keep)
    (hp : Plain env p cols width src ((allRows ⟨true, true, false⟩ frags).map (·.data))) :
    ∃ (S : List (Option Nat × Tuple V)) (gs : List (Option Nat × List (List (Nat × Tuple V)))) (st : Stats),
      S.Perm (toWrite p cols width src (allRows ⟨true, true, false⟩ frags)) ∧
      S.Pairwise (fun a b => addrLe a.1 b.1) ∧ flat gs = runs (S.map keyed) ∧
      st.updated = ((allRows ⟨true, true, false⟩ frags).flatMap (fun t => partners p cols width src t.data)).length ∧
      st.inserted = (newcomers p cols width src ((allRows ⟨true, true, false⟩ frags).map (·.data))).length ∧
      st.deleted = 0 ∧
      executePart env p cols width src frags nextId nextRow =
        match handleGroups env cols frags gs with
        | none => .error
        | some r => .ok (commitUpdate frags [] (env.done r.1)
            (newFrags nextId nextRow (env.files (r.2.map (wide cols width))))) st := by
  have hscan := (Read.C54_scan_all env.split henv.split ⟨true, true, false⟩ rfl frags ht.ok).1
  generalize htgt : allRows ⟨true, true, false⟩ frags = tgt at hscan hp ⊢
  have nn : ∀ r : Tuple V, (∃ c v, c < p.on.length ∧ r.getD c none = some v) → notAllNull p.on.length r = true := by
    rintro r ⟨c, v, h1, h2⟩
    unfold notAllNull
    rw [List.any_eq_true]
    have hc : c < r.length := by
      rcases Nat.lt_or_ge c r.length with h | h
      · exact h
      · rw [List.getD_eq_getElem?_getD, List.getElem?_eq_none h] at h2; cases h2
    refine ⟨r[c], ?_, ?_⟩
    · rw [List.mem_take_iff_getElem]
      exact ⟨c, by omega, rfl⟩
    · rw [List.getD_eq_getElem?_getD, List.getElem?_eq_getElem hc] at h2
      simp at h2
      rw [h2]; rfl
  obtain ⟨j1, j2, j3⟩ := joinedPart_spec env p hp.noCondition cols width src tgt henv.seen hp.indexedSource
    (fun s h => nn s (hp.source s h)) (fun t h => hp.target _ (List.mem_map_of_mem h))
    (fun h0 t h => hp.indexedTarget h0 _ (List.mem_map_of_mem h))
  have hsh := henv.shuffle (joinedPart env p cols width src tgt)
  obtain ⟨W, w1, w2⟩ := mergePart_spec p hp.noCondition (env.shuffle (joinedPart env p cols width src tgt))
  obtain ⟨o1, o2, o3⟩ := henv.order W
  obtain ⟨gs, g1, g2⟩ := groupStream_spec ((env.order W).map (List.map keyed)) (by
    intro b hb
    obtain ⟨b', hb', e⟩ := List.mem_map.mp hb
    have := o3 b' hb'
    rw [← e]
    simpa using this)
  refine ⟨(env.order W).flatten, gs, ⟨((env.shuffle (joinedPart env p cols width src tgt)).flatten.filter (insSel p)).length,
      ((env.shuffle (joinedPart env p cols width src tgt)).flatten.filter (updSel p)).length, 0⟩, ?_, o2, ?_, ?_, ?_, ?_, ?_⟩
  · refine o1.trans (w2.trans (List.Perm.trans ?_ j1))
    exact ((hsh.filter _).map _).append ((hsh.filter _).map _)
  · rw [g2, List.map_flatten]
  · rw [← j2]; exact (hsh.filter _).length_eq
  · rw [← j3]; exact (hsh.filter _).length_eq
  · rfl
  · unfold executePart
    rw [hv, hk, hscan]
    simp only [Bool.not_true, Bool.false_eq_true, if_false, w1, g1]
    cases handleGroups env cols frags gs <;> rfl

/-- The group of a fragment. -/
theorem group_rows (S : List (Option Nat × Tuple V)) (hso : S.Pairwise (fun a b => addrLe a.1 b.1))
    (gs : List (Option Nat × List (List (Nat × Tuple V)))) (hg : flat gs = runs (S.map keyed)) :
    (∀ id bs, (some id, bs) ∈ gs → bs.flatten = updsFor S id ∧ updsFor S id ≠ []) ∧
    (∀ id, updsFor S id ≠ [] → ∃ bs, (some id, bs) ∈ gs) := by
  have hpw : (S.map keyed).Pairwise (fun a b => keyNum a.1 ≤ keyNum b.1) := by
    rw [List.pairwise_map]
    apply hso.imp
    intro x y h
    obtain ⟨xa, xs⟩ := x
    obtain ⟨ya, ys⟩ := y
    cases xa with
    | none => simp [keyed, keyNum]
    | some a =>
      cases ya with
      | none => exact absurd h (by simp [addrLe])
      | some b =>
        have h : a ≤ b := h
        simp only [keyed, Option.map_some, keyNum]
        omega
  constructor
  · intro id bs hm
    have hu : (some id, bs.flatten) ∈ runs (S.map keyed) := by
      rw [← hg]
      exact List.mem_map.mpr ⟨(some id, bs), hm, rfl⟩
    have := runs_filter keyNum keyNum_inj _ hpw _ hu
    refine ⟨this, ?_⟩
    have hne := (runs_ranges (S.map keyed)).1.1 _ hu
    unfold updsFor
    rw [← this]
    exact hne
  · intro id hne
    obtain ⟨x, l, e⟩ := List.exists_cons_of_ne_nil hne
    have hx : x ∈ updsFor S id := by rw [e]; exact List.mem_cons_self
    unfold updsFor at hx
    obtain ⟨y, hy, _⟩ := List.mem_map.mp hx
    rw [List.mem_filter, decide_eq_true_eq] at hy
    have hk : some id ∈ (runs (S.map keyed)).map (·.1) := by
      rw [runs_keys]
      exact List.mem_map.mpr ⟨y, hy.1, hy.2⟩
    rw [← hg] at hk
    unfold flat at hk
    rw [List.map_map] at hk
    obtain ⟨g, hg', e'⟩ := List.mem_map.mp hk
    obtain ⟨k, bs⟩ := g
    have e' : k = some id := e'
    rw [e'] at hg'
    exact ⟨bs, hg'⟩

/-- C59, in part: if the job succeeds, it did what it should — under the conditions of `Plain`.  For both file versions. -/
theorem C59_patched_partial [Inhabited V] (env : PEnv V) (p : Params V) (cols : List Nat) (width : Nat)
    (src : List (Tuple V)) (frags : List (Frag (Tuple V))) (nextId : Nat) (nextRow : Option Nat) (o : Opts)
    (henv : env.OK p cols width src) (ht : Table frags nextId) (hv : p.valid = true) (hk : p.bySource = .keep)
    (hp : Plain env p cols width src ((allRows o frags).map (·.data)))
    (fs : List (Frag (Tuple V))) (st : Stats)
    (h : executePart env p cols width src frags nextId nextRow = .ok fs st) :
    Patched p cols width src o frags fs st := by
  have hdata : (allRows o frags).map (·.data) = (allRows ⟨true, true, false⟩ frags).map (·.data) := Update.data_eq _ _ _
  unfold Patched
  rw [hdata] at hp ⊢
  obtain ⟨S, gs, st', s1, s2, s3, s4, s5, s6, s7⟩ := executePart_reach env p cols width src frags nextId nextRow henv ht hv hk hp
  have hm := hp.noCondition
  have hun : ∀ t ∈ allRows ⟨true, true, false⟩ frags, (partners p cols width src t.data).length ≤ 1 :=
    fun t hmt => partners_length p cols width src t.data (hp.unambiguous _ (List.mem_map_of_mem hmt))
  obtain ⟨q1, q2, q3, q4⟩ := sorted_spec p cols width src ht S s1 s2 hun
  obtain ⟨r1, r2⟩ := group_rows S s2 gs s3
  rw [s7] at h
  cases hgr : handleGroups env cols frags gs with
  | none => rw [hgr] at h; cases h
  | some r =>
    rw [hgr] at h
    simp only [Result.ok.injEq] at h
    obtain ⟨h1, h2⟩ := h
    obtain ⟨u1, u2, u3⟩ := handleGroups_spec env cols frags gs r hgr
    have hdone := henv.done r.1
    -- what becomes of a fragment
    have hfrag : ∀ f ∈ frags, (Update.firstUpdated (env.done r.1) f).id = f.id ∧
        liveRows o (Update.firstUpdated (env.done r.1) f) =
          (liveRows o f).map (fun x => { x with data := patch p cols width src x.data }) := by
      intro f hf
      unfold Update.firstUpdated
      cases hfi : (env.done r.1).find? (fun u => u.id == f.id) with
      | none =>
        refine ⟨rfl, ?_⟩
        have hno : updsFor S f.id = [] := by
          rcases Classical.em (updsFor S f.id = []) with h | h
          · exact h
          · obtain ⟨bs, hb⟩ := r2 f.id h
            obtain ⟨g, out, e1, _, e3⟩ := u2 f.id bs hb
            have := List.find?_eq_none.mp hfi _ (hdone.mem_iff.mpr e3)
            have hid := List.find?_some e1
            simp [withColumns] at this hid
            exact absurd hid this
        unfold liveRows
        rw [List.map_map]
        apply List.map_congr_left
        intro off ho
        have hl := q4 f hf off ho
        rw [hno] at hl
        have hpt := overlay_patch p hm cols width src (f.file off)
        rw [← hl] at hpt
        simp only [List.lookup_nil, Option.getD_none] at hpt
        rw [overlay_eq, assign_proj] at hpt
        show rowAt f o off = { rowAt f o off with data := patch p cols width src (f.file off) }
        rw [← hpt]
        rfl
      | some u =>
        have hu := hdone.mem_iff.mp (List.mem_of_find?_eq_some hfi)
        have huid := List.find?_some hfi
        simp only [beq_iff_eq] at huid
        obtain ⟨id, bs, g, out, e1, e2, e3, e4⟩ := u1 u hu
        have hgid := List.find?_some e2
        simp only [beq_iff_eq] at hgid
        have hgm := List.mem_of_find?_eq_some e2
        have hgf : g = f := Update.eq_of_id ht.sorted hgm hf (by rw [← huid, e4]; rfl)
        subst hgf
        refine ⟨huid, ?_⟩
        rw [(r1 id bs e1).1, ← hgid] at e3
        have hsp := handle_spec env henv.split cols g (ht.ok g hf) (updsFor S g.id) (q2 g.id) (q3 g hf) out e3
        simp only [Option.getD_some]
        rw [e4]
        show (liveOffsets (withColumns cols g out)).map _ = _
        unfold liveRows
        rw [List.map_map]
        apply List.map_congr_left
        intro off ho
        have h1 := hsp off ho
        have h2 := q4 g hf off ho
        have hpt := overlay_patch p hm cols width src (g.file off)
        rw [← h2] at hpt
        show rowAt (withColumns cols g out) o off = { rowAt g o off with data := patch p cols width src (g.file off) }
        rw [← hpt]
        have hgd : out.getD off [] = wanted cols g (updsFor S g.id) off := by
          rw [List.getD_eq_getElem?_getD, h1]; rfl
        show ({ data := overlay cols (out.getD off []) (g.file off), id := _, addr := _ } : Row (Tuple V)) = _
        rw [hgd]
        rfl
    obtain ⟨n1, n2⟩ := Update.newFrags_ids nextId nextRow (env.files (r.2.map (wide cols width)))
    have hcommit : commitUpdate frags [] (env.done r.1) (newFrags nextId nextRow (env.files (r.2.map (wide cols width)))) =
        frags.map (Update.firstUpdated (env.done r.1)) ++ newFrags nextId nextRow (env.files (r.2.map (wide cols width))) := by
      unfold commitUpdate
      rw [List.filter_eq_self.mpr (by simp)]
      apply sortBy_of_sorted
      rw [List.pairwise_append, List.pairwise_map]
      refine ⟨?_, n1.imp (fun h => Nat.le_of_lt h), ?_⟩
      · apply List.Pairwise.imp_of_mem _ ht.sorted
        intro f g hf hg h
        rw [(hfrag f hf).1, (hfrag g hg).1]
        exact Nat.le_of_lt h
      · intro a ha b hb
        obtain ⟨f, hf, e⟩ := List.mem_map.mp ha
        have := (hfrag f hf).1
        have := ht.below f hf
        have := n2 b hb
        rw [← e]
        omega
    have hnew : r.2.Perm (newcomers p cols width src ((allRows ⟨true, true, false⟩ frags).map (·.data))) := by
      rw [u3, s3, (runs_ranges (S.map keyed)).2, List.filter_map, List.map_map]
      have h3 := (s1.filter (fun x => decide (x.1 = none))).map (fun x => x.2)
      have e1 : (S.filter ((fun x : Option Nat × (Nat × Tuple V) => decide (x.1 = none)) ∘ keyed)).map
          ((fun x => x.2.2) ∘ keyed) = (S.filter (fun x => decide (x.1 = none))).map (fun x => x.2) := by
        have : ∀ x ∈ S, ((fun x : Option Nat × (Nat × Tuple V) => decide (x.1 = none)) ∘ keyed) x = decide (x.1 = none) := by
          intro x _
          obtain ⟨a, s⟩ := x
          cases a <;> simp [keyed]
        rw [List.filter_congr this]
        rfl
      rw [e1]
      refine h3.trans (List.Perm.of_eq ?_)
      unfold toWrite
      rw [List.filter_append, List.map_append]
      have e2 : ((allRows ⟨true, true, false⟩ frags).flatMap (fun t => (partners p cols width src t.data).map
          (fun s => (some (idValue t.addr), s)))).filter (fun x => decide (x.1 = none)) = [] := by
        rw [List.filter_eq_nil_iff]
        intro x hx
        obtain ⟨t, _, hx⟩ := List.mem_flatMap.mp hx
        obtain ⟨s, _, e⟩ := List.mem_map.mp hx
        simp [← e]
      rw [e2, List.filter_eq_self.mpr, List.map_map]
      · simp [Function.comp_def]
      · intro x hx
        obtain ⟨s, _, e⟩ := List.mem_map.mp hx
        simp [← e]
    refine ⟨allRows o (newFrags nextId nextRow (env.files (r.2.map (wide cols width)))), ?_, ?_, ?_, ?_, ?_⟩
    · rw [← h1, hcommit]
      unfold allRows
      rw [List.flatMap_append, List.flatMap_map, List.map_flatMap]
      congr 1
      apply flatMap_congr'
      intro f hf
      exact (hfrag f hf).2
    · rw [Update.newFrags_data, henv.files, ← newcomers_full]
      have : wide (V := V) cols width = fullRow cols width := funext (wide_eq cols width)
      rw [this]
      exact hnew.map _
    · rw [← h2, s4, ← updated_count p _ _ hp.unambiguous, List.length_flatMap, List.length_flatMap, List.map_map]
      congr 1
      apply List.map_congr_left
      intro t _
      exact partners_full p hm cols width src t.data
    · rw [← h2, s5, ← newcomers_full, List.length_map]
    · rw [← h2]; exact s6

/-- C59, in part: with v2 files the job succeeds if the first batch of every fragment has a live row (the updater fails
otherwise, see C58). -/
theorem C59_succeeds_partial [Inhabited V] (env : PEnv V) (p : Params V) (cols : List Nat) (width : Nat)
    (src : List (Tuple V)) (frags : List (Frag (Tuple V))) (nextId : Nat) (nextRow : Option Nat) (o : Opts)
    (henv : env.OK p cols width src) (ht : Table frags nextId) (hv : p.valid = true) (hk : p.bySource = .keep)
    (hp : Plain env p cols width src ((allRows o frags).map (·.data)))
    (hv2 : env.legacy = none) (hlive : ∀ f ∈ frags, FirstLive env f) :
    ∃ fs st, executePart env p cols width src frags nextId nextRow = .ok fs st ∧
      Patched p cols width src o frags fs st := by
  have hdata : (allRows o frags).map (·.data) = (allRows ⟨true, true, false⟩ frags).map (·.data) := Update.data_eq _ _ _
  have hp' := hp
  rw [hdata] at hp'
  obtain ⟨S, gs, st, s1, s2, s3, _, _, _, s7⟩ := executePart_reach env p cols width src frags nextId nextRow henv ht hv hk hp'
  have hun : ∀ t ∈ allRows ⟨true, true, false⟩ frags, (partners p cols width src t.data).length ≤ 1 :=
    fun t hmt => partners_length p cols width src t.data (hp'.unambiguous _ (List.mem_map_of_mem hmt))
  obtain ⟨q1, q2, q3, q4⟩ := sorted_spec p cols width src ht S s1 s2 hun
  obtain ⟨r1, r2⟩ := group_rows S s2 gs s3
  have hok : ∃ r, handleGroups env cols frags gs = some r := by
    apply handleGroups_ok
    intro id bs hb
    obtain ⟨e1, e2⟩ := r1 id bs hb
    obtain ⟨x, l, e⟩ := List.exists_cons_of_ne_nil e2
    have hx : (x.1, x.2) ∈ updsFor S id := by rw [e]; exact List.mem_cons_self
    obtain ⟨hx1, hx2⟩ := (mem_updsFor S id x.1 x.2).mp hx
    obtain ⟨f, hf, off, ho, _, ea⟩ := (q1 _ _).mp hx1
    have h1 := Update.liveOffsets_lt ho
    have h2 := (ht.ok f hf).rows
    have hid : f.id = id := by omega
    have hfind : frags.find? (fun f => f.id == id) = some f := by
      cases hfi : frags.find? (fun f => f.id == id) with
      | none => exact absurd hid (by simpa using List.find?_eq_none.mp hfi f hf)
      | some g =>
        have hg := List.find?_some hfi
        simp only [beq_iff_eq] at hg
        rw [Update.eq_of_id ht.sorted (List.mem_of_find?_eq_some hfi) hf (by omega)]
    obtain ⟨out, hout⟩ := handle_ok env henv.split hv2 cols f (ht.ok f hf) (updsFor S f.id) (q2 _) (q3 f hf) (hlive f hf)
    exact ⟨f, out, hfind, by rw [e1, ← hid]; exact hout⟩
  obtain ⟨r, hr⟩ := hok
  rw [hr] at s7
  exact ⟨_, _, s7, C59_patched_partial env p cols width src frags nextId nextRow o henv ht hv hk hp _ _ s7⟩

end

/-- C59, the groups: however the sorted stream is cut into batches, the groups in sequence are the stream, no group is empty,
and neighbouring groups have different keys; so the groups are the same for every cut. -/
theorem C59_groups {K β : Type} [DecidableEq K] (input : List (List (K × β))) (h : ∀ b ∈ input, b ≠ []) :
    ∃ gs, groupStream input = some gs ∧
      gs.flatMap (fun g => g.2.flatten.map (fun b => (g.1, b))) = input.flatten ∧
      (∀ g ∈ gs, g.2.flatten ≠ []) ∧
      (∀ i, (hi : i + 1 < gs.length) → gs[i].1 ≠ gs[i + 1].1) ∧
      ∀ input', (∀ b ∈ input', b ≠ []) → input'.flatten = input.flatten →
        ∃ gs', groupStream input' = some gs' ∧
          gs'.map (fun g => (g.1, g.2.flatten)) = gs.map (fun g => (g.1, g.2.flatten)) := by
  obtain ⟨gs, g1, g2⟩ := groupStream_spec input h
  obtain ⟨⟨r1, r2⟩, r3⟩ := runs_ranges input.flatten
  rw [← g2] at r1 r2 r3
  refine ⟨gs, g1, ?_, ?_, ?_, ?_⟩
  · unfold unrun flat at r3
    rw [List.flatMap_map] at r3
    exact r3
  · intro g hg
    exact r1 (g.1, g.2.flatten) (List.mem_map.mpr ⟨g, hg, rfl⟩)
  · intro i hi
    have := r2 i (by unfold flat; simpa using hi)
    unfold flat at this
    simpa using this
  · intro input' h' e
    obtain ⟨gs', g1', g2'⟩ := groupStream_spec input' h'
    refine ⟨gs', g1', ?_⟩
    rw [e, ← g2] at g2'
    exact g2'

/-- A batch without rows panics. -/
theorem C59_empty_batch_panics {K β : Type} [DecidableEq K] (input : List (List (K × β))) (h : [] ∈ input) :
    groupStream input = none := by
  unfold groupStream
  generalize (input.map (fun b => b.length + 1)).sum + 1 = n
  generalize (⟨none, [], []⟩ : Grouper K β) = g
  induction n generalizing g input with
  | zero => rfl
  | succ n ih =>
    unfold pollAll
    split
    · rw [ih _ h]; rfl
    · cases input with
      | nil => cases h
      | cons b rest =>
        simp only
        cases hb : b.isEmpty with
        | true => rfl
        | false =>
          simp only [Bool.false_eq_true, if_false]
          apply ih
          rcases List.mem_cons.mp h with e | h
          · rw [← e] at hb; cases hb
          · exact h

example : groupStream [[(0, 5), (0, 6), (1, 7)], [(1, 8)], [(1, 9), (2, 4)]] =
    some [(0, [[5, 6]]), (1, [[7], [8], [9]]), (2, [[4]])] := by decide +kernel

/-- C59, the fields: after the rewrite a field of the newest file is in no other file; every other field is in the files it
was in; the field ids that are left keep their positions. -/
theorem C59_fields (older : List (List Int)) (newest : List Int) :
    ∃ older', tombstone (older ++ [newest]) = older' ++ [newest] ∧ older'.length = older.length ∧
      ∀ i, (h : i < older.length) → (h' : i < older'.length) → older'[i].length = older[i].length ∧
        (∀ c ∈ newest, 0 ≤ c → c ∉ older'[i]) ∧
        (∀ (c : Int) (j : Nat), 0 ≤ c → c ∉ newest → (older'[i][j]? = some c ↔ older[i][j]? = some c)) := by
  refine ⟨older.map (List.map (fun x => if newest.contains x then -2 else x)), ?_, by simp, ?_⟩
  · unfold tombstone
    rw [List.getLast?_concat, List.dropLast_concat]
  · intro i h h'
    rw [List.getElem_map]
    refine ⟨by simp, ?_, ?_⟩
    · intro c hc h0 hm
      obtain ⟨x, hx, e⟩ := List.mem_map.mp hm
      by_cases hn : newest.contains x = true
      · rw [if_pos hn] at e; omega
      · rw [if_neg hn] at e
        rw [e] at hn
        exact hn (by simpa using hc)
    · intro c j h0 hc
      rw [List.getElem?_map]
      cases older[i][j]? with
      | none => simp
      | some x =>
        simp only [Option.map_some, Option.some.injEq]
        by_cases hn : newest.contains x = true
        · rw [if_pos hn]
          have hx : x ∈ newest := by simpa using hn
          constructor
          · intro e; omega
          · intro e; rw [e] at hx; exact absurd hx hc
        · rw [if_neg hn]

example : tombstone [[0, 1, 2], [3, 4], [1, 3]] = [[0, -2, 2], [-2, 4], [1, 3]] := by decide

/-! ## A case -/

def exWide : List (Frag (Tuple Nat)) :=
  [{ id := 0, rows := 3, dv := none, seq := none, file := fun i => [some i, some 0, some (50 + i)] },
   { id := 4, rows := 3, dv := some (.set [1]), seq := none, file := fun i => [some (10 + i), none, some 9] }]

def exPart : List (Tuple Nat) := [[some 12, some 7], [some 30, none], [some 1, some 8], [some 11, some 5]]

/-- The columns 0 and 2 are given; row 11 is deleted, so it is new. -/
theorem C59_example :
    dataOf (executePart plainPEnv (upsert [0]) [0, 2] 3 exPart exWide 5 none) =
      some ([[some 0, some 0, some 50], [some 1, some 0, some 8], [some 2, some 0, some 52], [some 10, none, some 9],
        [some 12, none, some 7], [some 30, none, none], [some 11, none, some 5]], ⟨2, 2, 0⟩) := by decide +kernel

theorem exWide_table : Table exWide 5 := by
  refine ⟨?_, by simp [exWide], ?_, by decide⟩
  · intro f hf
    simp [exWide] at hf
    rcases hf with e | e <;> subst e
    · exact ⟨by decide, (fun d h => nomatch h), (fun q h => nomatch h)⟩
    · refine ⟨by decide, ?_, (fun q h => nomatch h)⟩
      intro d h; cases h
      exact ⟨by simp [Deletion.DV.WF], by intro o ho; simp [Deletion.DV.contains] at ho; subst ho; decide⟩
  · intro f hf
    simp [exWide] at hf
    rcases hf with e | e <;> subst e <;> decide

theorem exPlain : Plain plainPEnv (upsert [0]) [0, 2] 3 exPart ((allRows ⟨true, true, false⟩ exWide).map (·.data)) := by
  refine ⟨(fun c h => nomatch h), ?_, ?_, (fun h => absurd rfl h), (fun h => absurd rfl h), ?_⟩
  · intro s hs
    simp [exPart] at hs
    rcases hs with e | e | e | e <;> subst e
    · exact ⟨0, 12, by decide, rfl⟩
    · exact ⟨0, 30, by decide, rfl⟩
    · exact ⟨0, 1, by decide, rfl⟩
    · exact ⟨0, 11, by decide, rfl⟩
  · unfold Shows; decide +kernel
  · unfold Unambiguous; decide +kernel

example : ∃ fs st, executePart plainPEnv (upsert [0]) [0, 2] 3 exPart exWide 5 none = .ok fs st ∧
    Patched (upsert [0]) [0, 2] 3 exPart ⟨true, true, false⟩ exWide fs st :=
  C59_succeeds_partial plainPEnv (upsert [0]) [0, 2] 3 exPart exWide 5 none ⟨true, true, false⟩ (plainPEnv_ok _ _ _ _) exWide_table
    (by decide) rfl exPlain rfl (by
      intro f hf
      simp [exWide] at hf
      rcases hf with e | e <;> subst e
      · exact ⟨3, [], by decide +kernel, 0, by decide, by decide⟩
      · exact ⟨3, [], by decide +kernel, 0, by decide, by decide⟩)

/-- C59: a job that is to delete rows, that has no keys, or that is asked to change nothing, is refused on every table. -/
theorem C59_refused (p : Params Nat) (h : p.bySource ≠ .keep ∨ p.on = [] ∨ (p.insert = false ∧ p.matched = .doNothing))
    (env : PEnv Nat) (cols : List Nat) (width : Nat) (src : List (Tuple Nat)) (frags : List (Frag (Tuple Nat))) (nextId : Nat)
    (nextRow : Option Nat) : executePart env p cols width src frags nextId nextRow = .error := by
  obtain ⟨on, matched, insert, bySource⟩ := p
  unfold executePart
  cases bySource with
  | delete => simp
  | deleteIf q => simp
  | keep =>
    rcases h with h | h | ⟨h1, h2⟩
    · exact absurd rfl h
    · simp only at h
      simp [Params.valid, h]
    · simp only at h1 h2
      simp [Params.valid, h1, h2]

example : executePart plainPEnv { upsert [0] with bySource := .delete } [0, 2] 3 exPart exWide 5 none = .error :=
  C59_refused _ (Or.inl (by intro h; cases h)) _ _ _ _ _ _ _

end Verif.Merge
