import Verif.Update.Lemmas

/-!
# C33: UPDATE

`newTuple us r` is the row SQL's `UPDATE … SET` makes of `r`: every assigned column gets the value of its expression on
the old row.  A row is selected if there is no condition or the condition is true (not false, not null).
-/
namespace Verif.Update
open Verif
open Verif.Read (Frag Row Opts Cell Scanner runScan live liveOffsets liveRows allRows rowAt rowIdOf Splits)
open Verif.Deletion (DV)
open Verif.RowIds (Seq)

variable {V : Type}

/-- The environment only cuts lists into pieces and reorders tasks. -/
structure Env.OK (env : Env V) : Prop where
  split : Splits env.split
  batch : ∀ l, (env.batch l).flatten = l
  files : ∀ l, (env.files l).flatten = l
  sched : ∀ l, (env.sched l).Perm l

/-- The row after the update. -/
def newTuple (us : List (Nat × (Tuple V → Option V))) (r : Tuple V) : Tuple V :=
  r.zipIdx.map (fun x => match us.lookup x.2 with
    | none => x.1
    | some e => (e r).getD x.1)

/-- Whether the condition selects a row. -/
def selects (cond : Option (Tuple V → Option Bool)) (r : Tuple V) : Bool :=
  match cond with
  | none => true
  | some p => decide (p r = some true)

/-- No expression reads a column assigned by another assignment. -/
def Independent (us : List (Nat × (Tuple V → Option V))) : Prop :=
  ∀ u ∈ us, ∀ w ∈ us, u.1 ≠ w.1 → ∀ r v, u.2 (r.set w.1 v) = u.2 r

/-- C33, full statement: the rows that are not selected stay as they are, in order; then come the selected rows with
their new values; their number is reported. -/
def C33_statement : Prop :=
  ∀ (env : Env Nat) (cond : Option (Tuple Nat → Option Bool)) (us : List (Nat × (Tuple Nat → Option Nat)))
    (frags : List (Frag (Tuple Nat))) (nextId : Nat) (nextRow : Option Nat) (numRows : Nat) (o : Opts),
    env.OK → Table frags nextId → (us.map (·.1)).Nodup → (∀ u ∈ us, ∀ r, (u.2 r).isSome) →
    ∃ fs n rest, execute env cond us frags nextId nextRow numRows = .ok fs n ∧
      allRows o fs = (allRows o frags).filter (fun r => !selects cond r.data) ++ rest ∧
      rest.map (·.data) = (((allRows o frags).map (·.data)).filter (selects cond)).map (newTuple us) ∧
      n = (((allRows o frags).map (·.data)).filter (selects cond)).length

/-- Everything in one piece, tasks in order. -/
def plainEnv : Env Nat := ⟨fun l => [l], fun l => [l], fun l => [l], id, false⟩

theorem plainEnv_ok : plainEnv.OK :=
  ⟨fun l => by simp [plainEnv], fun l => by simp [plainEnv], fun l => by simp [plainEnv], fun _ => List.Perm.refl _⟩

/-- One fragment with the row (1, 2). -/
def pairFrag : Frag (Tuple Nat) := { id := 0, rows := 1, dv := none, seq := none, file := fun _ => [1, 2] }

theorem pairFrag_table : Table [pairFrag] 1 := by
  refine ⟨?_, by simp, ?_, by decide⟩
  · intro f hf
    simp at hf; subst hf
    exact ⟨by decide, (fun d h => nomatch h), (fun q h => nomatch h)⟩
  · intro f hf
    simp at hf; subst hf; decide

/-- `SET a = b, b = a`, first column first or second column first. -/
def swap1 : List (Nat × (Tuple Nat → Option Nat)) := [(0, fun r => some (r.getD 1 0)), (1, fun r => some (r.getD 0 0))]
def swap2 : List (Nat × (Tuple Nat → Option Nat)) := [(1, fun r => some (r.getD 0 0)), (0, fun r => some (r.getD 1 0))]

/-- The data of a successful update. -/
def dataOf : Result (Tuple Nat) → Option (List (Tuple Nat) × Nat)
  | .error => none
  | .ok fs n => some ((allRows ⟨false, false, false⟩ fs).map (·.data), n)

/-- `SET a = b, b = a` on (1, 2) gives (2, 2) or (1, 1), by the order of a hash map, never (2, 1). -/
theorem C33_swap :
    dataOf (execute plainEnv none swap1 [pairFrag] 1 none 1) = some ([[2, 2]], 1) ∧
    dataOf (execute plainEnv none swap2 [pairFrag] 1 none 1) = some ([[1, 1]], 1) ∧
    newTuple swap1 [1, 2] = [2, 1] ∧ newTuple swap2 [1, 2] = [2, 1] := by
  refine ⟨by decide +kernel, by decide +kernel, by decide, by decide⟩

theorem C33_violated : ¬ C33_statement := by
  intro h
  obtain ⟨fs, n, rest, h1, h2, h3, _⟩ := h plainEnv none swap1 [pairFrag] 1 none 1 ⟨false, false, false⟩ plainEnv_ok pairFrag_table
    (by decide) (by intro u hu r; simp [swap1] at hu; rcases hu with e | e <;> subst e <;> rfl)
  have h4 := C33_swap.1
  rw [h1] at h4
  simp only [dataOf, Option.some.injEq, Prod.mk.injEq] at h4
  rw [h2, List.map_append, h3] at h4
  have h5 := h4.1
  revert h5
  decide +kernel

/-- Two fragments of two rows with stable row ids 0 to 3. -/
def stable0 : Frag (Tuple Nat) := { id := 0, rows := 2, dv := none, seq := some [.range 0 2], file := fun o => [10 + o] }
def stable1 : Frag (Tuple Nat) := { id := 1, rows := 2, dv := none, seq := some [.range 2 4], file := fun o => [20 + o] }

theorem stable_table : Table [stable0, stable1] 2 := by
  refine ⟨?_, by simp [stable0, stable1], ?_, by decide⟩
  · intro f hf
    simp at hf
    rcases hf with e | e <;> subst e
    · refine ⟨by decide, (fun d h => nomatch h), ?_⟩
      intro q hq; cases hq
      refine ⟨?_, by decide⟩
      intro sg hsg; simp at hsg; subst hsg; exact ⟨by decide, by decide⟩
    · refine ⟨by decide, (fun d h => nomatch h), ?_⟩
      intro q hq; cases hq
      refine ⟨?_, by decide⟩
      intro sg hsg; simp at hsg; subst hsg; exact ⟨by decide, by decide⟩
  · intro f hf
    simp at hf
    rcases hf with e | e <;> subst e <;> decide

/-- With stable row ids, `UPDATE SET a = 99 WHERE a = 20` keeps the old row: its row id 2 is taken for an address, row 2
of fragment 0, which does not exist. -/
theorem C33_stable_ids_duplicate :
    dataOf (execute plainEnv (some (fun r => some (r == [20]))) [(0, fun _ => some 99)] [stable0, stable1] 2 (some 4) 4) =
      some ([[10], [11], [20], [21], [99]], 1) := by decide +kernel

/-- The next update with a condition that selects both rows of the last fragments fails or not as the row ids happen to
be ordered: ids 1, 0 in one fragment are refused. -/
theorem C33_stable_ids_refused :
    dataOf (execute plainEnv none [(0, fun _ => some 99)]
      [{ stable0 with seq := some [.range 1 2, .range 0 1] }] 1 (some 2) 2) = none := by decide +kernel

/-! ## What holds -/

/-- Addresses of the selected rows. -/
def selAddrs {α : Type} (sel : α → Bool) (frags : List (Frag α)) : List Nat :=
  frags.flatMap (fun f => ((liveOffsets f).filter (fun off => sel (f.file off))).map (fun off => f.id * U32 + off))

theorem liveOffsets_lt {α : Type} {f : Frag α} {off : Nat} (h : off ∈ liveOffsets f) : off < f.rows :=
  List.mem_range.mp (List.mem_filter.mp h).1

theorem selAddrs_sorted {α : Type} (sel : α → Bool) {frags : List (Frag α)} {nextId : Nat} (ht : Table frags nextId) :
    (selAddrs sel frags).Pairwise (· < ·) := by
  unfold selAddrs
  rw [List.pairwise_flatMap]
  constructor
  · intro f hf
    rw [List.pairwise_map]
    apply List.Pairwise.imp (R := (· < ·))
    · intro a b h; omega
    · exact ((List.pairwise_lt_range).filter _).filter _
  · apply List.Pairwise.imp_of_mem (R := fun f g : Frag α => f.id < g.id) _ ht.sorted
    intro f g hf hg h a ha b hb
    obtain ⟨x, hx, e1⟩ := List.mem_map.mp ha
    obtain ⟨y, hy, e2⟩ := List.mem_map.mp hb
    have := liveOffsets_lt (List.mem_filter.mp hx).1
    have := (ht.ok f hf).rows
    omega

theorem selAddrs_addresses {α : Type} (sel : α → Bool) {frags : List (Frag α)} {nextId : Nat} (ht : Table frags nextId) :
    Addresses frags (selAddrs sel frags) := by
  intro a ha f hf hid
  obtain ⟨g, hg, hag⟩ := List.mem_flatMap.mp ha
  obtain ⟨x, hx, e⟩ := List.mem_map.mp hag
  have h1 := liveOffsets_lt (List.mem_filter.mp hx).1
  have h2 := (ht.ok g hg).rows
  have : f = g := eq_of_id ht.sorted hf hg (by omega)
  subst this
  omega

theorem mem_selAddrs {α : Type} (sel : α → Bool) {frags : List (Frag α)} {nextId : Nat} (ht : Table frags nextId)
    {f : Frag α} (hf : f ∈ frags) {off : Nat} (ho : off ∈ liveOffsets f) :
    f.id * U32 + off ∈ selAddrs sel frags ↔ sel (f.file off) = true := by
  have h0 := liveOffsets_lt ho
  have h0' := (ht.ok f hf).rows
  unfold selAddrs
  rw [List.mem_flatMap]
  constructor
  · rintro ⟨g, hg, hag⟩
    obtain ⟨x, hx, e⟩ := List.mem_map.mp hag
    have h1 := liveOffsets_lt (List.mem_filter.mp hx).1
    have h2 := (ht.ok g hg).rows
    have : f = g := eq_of_id ht.sorted hf hg (by omega)
    subst this
    have : x = off := by omega
    subst this
    exact (List.mem_filter.mp hx).2
  · intro h
    exact ⟨f, hf, List.mem_map.mpr ⟨off, List.mem_filter.mpr ⟨ho, h⟩, rfl⟩⟩

/-- Removing the addresses of the selected rows leaves exactly the other rows. -/
theorem allRows_unselected {α : Type} (sel : α → Bool) {frags : List (Frag α)} {nextId : Nat} (ht : Table frags nextId)
    (o : Opts) :
    allRows o (frags.filterMap (leftOf (selAddrs sel frags))) = (allRows o frags).filter (fun r => !sel r.data) := by
  rw [allRows_left ht _ (selAddrs_addresses sel ht)]
  unfold allRows
  rw [List.filter_flatMap]
  have hcong : ∀ f ∈ frags, ((liveOffsets f).filter (fun off => !(selAddrs sel frags).contains (f.id * U32 + off))).map
      (rowAt f o) = (liveRows o f).filter (fun r => !sel r.data) := by
    intro f hf
    unfold liveRows
    rw [List.filter_map]
    congr 1
    apply List.filter_congr
    intro off ho
    have := mem_selAddrs sel ht hf ho
    show _ = !sel (f.file off)
    rw [Bool.eq_iff_iff]
    cases hs : sel (f.file off) <;> cases hm : (selAddrs sel frags).contains (f.id * U32 + off) <;> simp_all
  have hsub : ∀ l : List (Frag α), (∀ f ∈ l, f ∈ frags) →
      l.flatMap (fun f => ((liveOffsets f).filter (fun off => !(selAddrs sel frags).contains (f.id * U32 + off))).map
        (rowAt f o)) = l.flatMap (fun f => (liveRows o f).filter (fun r => !sel r.data)) := by
    intro l
    induction l with
    | nil => intro _; rfl
    | cons f fs ih =>
      intro hs
      rw [List.flatMap_cons, List.flatMap_cons, hcong f (hs f List.mem_cons_self),
        ih (fun g hg => hs g (List.mem_cons_of_mem _ hg))]
  exact hsub frags (fun _ h => h)

/-- The scan of an update: the selected rows. -/
theorem scan_eq {split : List (Tuple V) → List (List (Tuple V))} (hsp : Splits split) (legacy : Bool)
    (cond : Option (Tuple V → Option Bool)) (o : Opts) (hn : o.nulls = false) {frags : List (Frag (Tuple V))}
    (hf : ∀ f ∈ frags, f.OK) (numRows : Nat) :
    runScan split legacy ⟨cond.map (fun p r => p r == some true), none, none, none⟩ o frags numRows =
      some ((allRows o frags).filter (fun r => selects cond r.data)) := by
  obtain ⟨h2, h1⟩ := Read.C54_scan_all split hsp o hn frags hf
  have hr : Read.scanRange (⟨cond.map (fun p r => p r == some true), none, none, none⟩ : Scanner (Tuple V)) numRows = none := by
    unfold Read.scanRange; cases cond <;> rfl
  unfold runScan
  simp only [hr]
  have : (if legacy = true then Read.scanV1 split o frags else Read.scanV2 split o frags none) = some (allRows o frags) := by
    cases legacy <;> simp [h1, h2]
  rw [this]
  have hfil : Read.filterStage (cond.map (fun p r => p r == some true)) (allRows o frags) =
      (allRows o frags).filter (fun r => selects cond r.data) := by
    cases cond with
    | none => exact (List.filter_eq_self.mpr (by intro _ _; rfl)).symm
    | some p =>
      show (allRows o frags).filter _ = _
      apply List.filter_congr
      intro r _
      show (p r.data == some true) = decide (p r.data = some true)
      rw [Bool.eq_iff_iff]; simp
  simp only [hfil, Read.sortStage, Read.hasLimitNode]
  simp

/-- Without stable row ids, the ids of the selected rows are their addresses. -/
theorem ids_eq {α : Type} (sel : α → Bool) (frags : List (Frag α)) (hp : ∀ f ∈ frags, f.seq = none) :
    ((allRows ⟨true, false, false⟩ frags).filter (fun r => sel r.data)).map (fun r => idValue r.id) = selAddrs sel frags := by
  induction frags with
  | nil => rfl
  | cons f fs ih =>
    have ih := ih (fun g hg => hp g (List.mem_cons_of_mem _ hg))
    unfold allRows selAddrs at *
    rw [List.flatMap_cons, List.filter_append, List.map_append, List.flatMap_cons, ih]
    congr 1
    unfold liveRows
    rw [List.filter_map, List.map_map]
    apply List.map_congr_left
    intro off _
    show rowIdOf f off = _
    unfold rowIdOf
    rw [hp f List.mem_cons_self]

theorem data_eq {α : Type} (o o' : Opts) (frags : List (Frag α)) :
    (allRows o frags).map (·.data) = (allRows o' frags).map (·.data) := by
  unfold allRows liveRows
  rw [List.map_flatMap, List.map_flatMap]
  congr 1
  funext f
  rw [List.map_map, List.map_map]
  rfl

/-- A row through independent assignments, one after the other, is the row SQL asks for. -/
theorem updateRow_eq (us : List (Nat × (Tuple V → Option V))) (hk : (us.map (·.1)).Nodup) (hi : Independent us)
    (r t : Tuple V) (h : updateRow us r = some t) : t = newTuple us r := by
  suffices hs : ∀ i, t[i]? = (r[i]?).map (fun v => match us.lookup i with | none => v | some e => (e r).getD v) by
    apply List.ext_getElem?
    intro i
    rw [hs i]
    unfold newTuple
    rw [List.getElem?_map, List.getElem?_zipIdx]
    cases r[i]? <;> simp
  induction us generalizing r with
  | nil => intro i; simp [updateRow] at h; subst h; simp
  | cons u us ih =>
    obtain ⟨c, e⟩ := u
    unfold updateRow at h
    cases hv : e r with
    | none => rw [hv] at h; cases h
    | some v =>
      rw [hv] at h
      simp only at h
      have hk' := List.nodup_cons.mp (show (c :: us.map (·.1)).Nodup from hk)
      have ih := ih hk'.2 (fun u hu w hw => hi u (List.mem_cons_of_mem _ hu) w (List.mem_cons_of_mem _ hw)) _ h
      intro i
      rw [ih i]
      by_cases hic : i = c
      · subst hic
        have hlk : us.lookup i = none := by
          rw [List.lookup_eq_none_iff]
          intro p hp
          simp only [beq_eq_false_iff_ne, ne_eq, bne_iff_ne]
          intro he
          exact hk'.1 (he ▸ List.mem_map_of_mem hp)
        rw [hlk]
        simp only [List.lookup_cons, beq_self_eq_true, hv, Option.getD_some]
        by_cases hlen : i < r.length
        · simp [hlen]
        · simp [hlen]
      · have hb : (i == c) = false := by simpa using hic
        rw [List.getElem?_set_ne (Ne.symm hic)]
        simp only [List.lookup_cons, hb]
        congr 1
        funext v'
        cases hlk : us.lookup i with
        | none => rfl
        | some e' =>
          simp only
          obtain ⟨l1, l2, hl, _⟩ := List.lookup_eq_some_iff.mp hlk
          have hm : (i, e') ∈ us := by rw [hl]; simp
          have := hi (i, e') (List.mem_cons_of_mem _ hm) (c, e) List.mem_cons_self hic r v
          simp only at this
          rw [this]

theorem updateRow_total (us : List (Nat × (Tuple V → Option V))) (hi : Independent us) (hk : (us.map (·.1)).Nodup)
    (r : Tuple V) :
    (∀ u ∈ us, (u.2 r).isSome) ↔ (updateRow us r).isSome := by
  induction us generalizing r with
  | nil => simp [updateRow]
  | cons u us ih =>
    obtain ⟨c, e⟩ := u
    have hk' := List.nodup_cons.mp (show (c :: us.map (·.1)).Nodup from hk)
    have ih := fun r => ih (fun u hu w hw => hi u (List.mem_cons_of_mem _ hu) w (List.mem_cons_of_mem _ hw)) hk'.2 r
    unfold updateRow
    cases hv : e r with
    | none =>
      simp only [List.mem_cons, Option.isSome_none]
      constructor
      · intro h
        have := h (c, e) (Or.inl rfl)
        simp [hv] at this
      · intro h; cases h
    | some v =>
      simp only
      rw [← ih]
      have hsame : ∀ u ∈ us, u.2 (r.set c v) = u.2 r := by
        intro u hu
        apply hi u (List.mem_cons_of_mem _ hu) (c, e) List.mem_cons_self
        intro he
        have he : u.1 = c := he
        exact hk'.1 (he ▸ List.mem_map_of_mem hu)
      constructor
      · intro h u hu; rw [hsame u hu]; exact h u (List.mem_cons_of_mem _ hu)
      · intro h u hu
        rcases List.mem_cons.mp hu with e' | hu
        · subst e'; simp [hv]
        · rw [← hsame u hu]; exact h u hu

/-- C33, what holds: without stable row ids, if no expression reads a column that another assignment sets, an update
keeps every row that is not selected (data, row id and address, in order), adds the selected rows with the new values,
and reports their number — for every condition, every cut into batches and files and every order of tasks. -/
theorem C33_update_partial (env : Env V) (he : env.OK) (cond : Option (Tuple V → Option Bool))
    (us : List (Nat × (Tuple V → Option V))) (hk : (us.map (·.1)).Nodup) (hi : Independent us)
    (frags : List (Frag (Tuple V))) (nextId : Nat) (ht : Table frags nextId) (hp : ∀ f ∈ frags, f.seq = none)
    (nextRow : Option Nat) (numRows : Nat) (o : Opts)
    (hs : ∀ r ∈ (allRows o frags).map (·.data), selects cond r = true → ∀ u ∈ us, (u.2 r).isSome) :
    ∃ fs n rest, execute env cond us frags nextId nextRow numRows = .ok fs n ∧
      allRows o fs = (allRows o frags).filter (fun r => !selects cond r.data) ++ rest ∧
      rest.map (·.data) = (((allRows o frags).map (·.data)).filter (selects cond)).map (newTuple us) ∧
      n = (((allRows o frags).map (·.data)).filter (selects cond)).length := by
  have hids := ids_eq (selects cond) frags hp
  have hsorted := selAddrs_sorted (selects cond) ht
  unfold execute
  rw [scan_eq he.split env.legacy cond ⟨true, false, false⟩ rfl ht.ok numRows]
  simp only
  rw [capture_sorted _ [] (by rw [he.batch, hids]; exact hsorted)]
  simp only [he.batch, hids, List.nil_append]
  have hflat : ((env.batch ((allRows ⟨true, false, false⟩ frags).filter (fun r => selects cond r.data))).map
      (List.map (·.data))).flatten = ((allRows o frags).map (·.data)).filter (selects cond) := by
    rw [← List.map_flatten, he.batch, data_eq o ⟨true, false, false⟩ frags, List.filter_map]
    rfl
  rw [updateBatches_eq, hflat]
  have hmap : mapRows (updateRow us) (((allRows o frags).map (·.data)).filter (selects cond)) =
      some ((((allRows o frags).map (·.data)).filter (selects cond)).map (newTuple us)) := by
    apply mapRows_some
    intro r hr
    obtain ⟨h1, h2⟩ := List.mem_filter.mp hr
    obtain ⟨t, ht⟩ := Option.isSome_iff_exists.mp ((updateRow_total us hi hk r).mp (hs r h1 h2))
    rw [ht, updateRow_eq us hk hi r t ht]
  rw [hmap]
  simp only
  generalize hnf : newFrags nextId nextRow
    (env.files ((((allRows o frags).map (·.data)).filter (selects cond)).map (newTuple us))) = nf
  obtain ⟨i1, i2⟩ := newFrags_ids nextId nextRow
    (env.files ((((allRows o frags).map (·.data)).filter (selects cond)).map (newTuple us)))
  obtain ⟨r, h1, h2⟩ := commit_eq ht (selAddrs (selects cond) frags) (selAddrs_addresses _ ht) (env.sched frags)
    (he.sched frags) nf (hnf ▸ i1) (hnf ▸ i2)
  rw [h1]
  simp only
  refine ⟨_, _, allRows o nf, rfl, ?_, ?_, ?_⟩
  · rw [h2]
    unfold allRows
    rw [List.flatMap_append]
    congr 1
    exact allRows_unselected (selects cond) ht o
  · rw [← hnf, newFrags_data, he.files]
  · rw [← hnf, newFrags_rows, he.files, List.length_map]

/-- An expression that fails on a selected row fails the update. -/
theorem C33_error_partial (env : Env V) (he : env.OK) (cond : Option (Tuple V → Option Bool))
    (us : List (Nat × (Tuple V → Option V))) (hk : (us.map (·.1)).Nodup) (hi : Independent us)
    (frags : List (Frag (Tuple V))) (nextId : Nat) (ht : Table frags nextId)
    (nextRow : Option Nat) (numRows : Nat) (o : Opts)
    (hs : ∃ r ∈ (allRows o frags).map (·.data), selects cond r = true ∧ ∃ u ∈ us, u.2 r = none) :
    execute env cond us frags nextId nextRow numRows = .error := by
  unfold execute
  rw [scan_eq he.split env.legacy cond ⟨true, false, false⟩ rfl ht.ok numRows]
  simp only
  by_cases hso : ([] ++ (env.batch ((allRows ⟨true, false, false⟩ frags).filter (fun r => selects cond r.data))).flatten.map
      (fun r : Row (Tuple V) => idValue r.id)).Pairwise (· < ·)
  · rw [capture_sorted _ [] hso]
    simp only
    have hflat : ((env.batch ((allRows ⟨true, false, false⟩ frags).filter (fun r => selects cond r.data))).map
        (List.map (·.data))).flatten = ((allRows o frags).map (·.data)).filter (selects cond) := by
      rw [← List.map_flatten, he.batch, data_eq o ⟨true, false, false⟩ frags, List.filter_map]
      rfl
    rw [updateBatches_eq, hflat]
    obtain ⟨r, hr, h1, u, hu, h2⟩ := hs
    rw [mapRows_none (updateRow us) _ ⟨r, List.mem_filter.mpr ⟨hr, h1⟩, by
      cases hc : updateRow us r with
      | none => rfl
      | some t =>
        have := (updateRow_total us hi hk r).mpr (by simp [hc]) u hu
        rw [h2] at this; cases this⟩]
  · rw [capture_error _ [] List.Pairwise.nil hso]

theorem updateRow_perm (us us' : List (Nat × (Tuple V → Option V))) (hk : (us.map (·.1)).Nodup) (hi : Independent us)
    (hp : us.Perm us') (r : Tuple V) : updateRow us r = updateRow us' r := by
  have hk' : (us'.map (·.1)).Nodup := (hp.map _).nodup_iff.mp hk
  have hi' : Independent us' := fun u hu w hw => hi u (hp.mem_iff.mpr hu) w (hp.mem_iff.mpr hw)
  have ht := updateRow_total us hi hk r
  have ht' := updateRow_total us' hi' hk' r
  have hiff : (updateRow us r).isSome = (updateRow us' r).isSome := by
    rw [Bool.eq_iff_iff, ← ht, ← ht']
    exact ⟨fun h u hu => h u (hp.mem_iff.mpr hu), fun h u hu => h u (hp.mem_iff.mp hu)⟩
  cases h1 : updateRow us r with
  | none =>
    rw [h1] at hiff
    cases h2 : updateRow us' r with
    | none => rfl
    | some t => rw [h2] at hiff; cases hiff
  | some t =>
    rw [h1] at hiff
    cases h2 : updateRow us' r with
    | none => rw [h2] at hiff; cases hiff
    | some t' =>
      rw [updateRow_eq us hk hi r t h1, updateRow_eq us' hk' hi' r t' h2]
      congr 1
      unfold newTuple
      apply List.map_congr_left
      intro x _
      have : us.lookup x.2 = us'.lookup x.2 := by
        cases hl : us.lookup x.2 with
        | none =>
          symm
          rw [List.lookup_eq_none_iff] at hl ⊢
          exact fun p hp' => hl p (hp.mem_iff.mpr hp')
        | some e =>
          symm
          obtain ⟨l1, l2, hl1, _⟩ := List.lookup_eq_some_iff.mp hl
          have hm : (x.2, e) ∈ us' := hp.mem_iff.mp (by rw [hl1]; simp)
          obtain ⟨s1, s2, hs⟩ := List.append_of_mem hm
          rw [List.lookup_eq_some_iff]
          refine ⟨s1, s2, hs, ?_⟩
          intro p hp'
          rw [hs, List.map_append, List.nodup_append] at hk'
          have := hk'.2.2 p.1 (List.mem_map_of_mem hp') x.2 (by simp)
          simpa using Ne.symm this
      rw [this]

/-- The iteration order of the hash map of assignments does not matter if the assignments are independent. -/
theorem C33_order_partial (env : Env V) (cond : Option (Tuple V → Option Bool))
    (us us' : List (Nat × (Tuple V → Option V))) (hk : (us.map (·.1)).Nodup) (hi : Independent us) (hp : us.Perm us')
    (frags : List (Frag (Tuple V))) (nextId : Nat) (nextRow : Option Nat) (numRows : Nat) :
    execute env cond us frags nextId nextRow numRows = execute env cond us' frags nextId nextRow numRows := by
  have : updateBatches us = updateBatches us' := by
    funext bs
    rw [updateBatches_eq, updateBatches_eq]
    exact mapRows_congr (fun r _ => updateRow_perm us us' hk hi hp r)
  unfold execute
  rw [this]

/-- Row ids that do not increase along the scan (as stable row ids need not) fail the update. -/
theorem C33_unsorted_ids_error (env : Env V) (he : env.OK) (cond : Option (Tuple V → Option Bool))
    (us : List (Nat × (Tuple V → Option V))) (frags : List (Frag (Tuple V))) (nextId : Nat) (ht : Table frags nextId)
    (nextRow : Option Nat) (numRows : Nat) (ids : List Nat)
    (hids : ((allRows ⟨true, false, false⟩ frags).filter (fun r => selects cond r.data)).map (·.id) = ids.map Cell.val)
    (hs : ¬ ids.Pairwise (· < ·)) :
    execute env cond us frags nextId nextRow numRows = .error := by
  unfold execute
  rw [scan_eq he.split env.legacy cond ⟨true, false, false⟩ rfl ht.ok numRows]
  simp only
  rw [capture_error _ [] List.Pairwise.nil]
  rw [List.nil_append, he.batch]
  have : ((allRows ⟨true, false, false⟩ frags).filter (fun r => selects cond r.data)).map (fun r => idValue r.id) = ids := by
    have h := congrArg (List.map idValue) hids
    rw [List.map_map, List.map_map] at h
    rw [show (fun r : Row (Tuple V) => idValue r.id) = idValue ∘ (·.id) from rfl, h]
    show ids.map (fun x => x) = ids
    simp
  rw [this]; exact hs

/-- Non-trivial: two fragments, one with a deleted row; `SET a = a + 1, b = 0 WHERE a < 40` selects rows of both; the
condition is null on the row (40, 4). -/
def exFrags : List (Frag (Tuple Nat)) :=
  [{ id := 0, rows := 3, dv := some (.set [1]), seq := none, file := fun o => [10 * (o + 1), o + 1] },
   { id := 4, rows := 2, dv := none, seq := none, file := fun o => [10 * (o + 4), o + 4] }]

example : Table exFrags 5 := by
  refine ⟨?_, by simp [exFrags], ?_, by decide⟩
  · intro f hf
    simp [exFrags] at hf
    rcases hf with e | e <;> subst e
    · refine ⟨by decide, ?_, (fun q h => nomatch h)⟩
      intro d hd; cases hd
      exact ⟨by simp [DV.WF], by intro o ho; simp [DV.contains] at ho; subst ho; decide⟩
    · exact ⟨by decide, (fun d h => nomatch h), (fun q h => nomatch h)⟩
  · intro f hf
    simp [exFrags] at hf
    rcases hf with e | e <;> subst e <;> decide

example : dataOf (execute plainEnv (some (fun r => if r.getD 1 0 = 4 then none else some (decide (r.getD 0 0 ≠ 30))))
    [(0, fun r => some (r.getD 0 0 + 1)), (1, fun _ => some 0)] exFrags 5 none 4) =
    some ([[30, 3], [40, 4], [11, 0], [51, 0]], 2) := by decide +kernel

end Verif.Update
