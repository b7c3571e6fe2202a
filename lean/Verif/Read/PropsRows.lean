import Verif.Read.Lemmas

/-!
# C28: every row read carries its own row id and address

`Frag.OK`: fewer than 2^32 rows, a well-formed deletion vector over those rows, and a well-formed row id
sequence with one id for each row.  `Splits`: the file readers cut the rows into batches without
changing them.
-/
namespace Verif.Read
open Verif
open Verif.Deletion (DV patchRange liveBelow countBelow)
open Verif.RowIds (Seq Seg)
open Verif.RowIds.Seq (Params sliceIds)

structure Frag.OK {α : Type} (f : Frag α) : Prop where
  rows : f.rows < U32
  dv : ∀ d, f.dv = some d → d.WF ∧ ∀ o, d.contains o = true → o < f.rows
  seq : ∀ q, f.seq = some q → (∀ sg ∈ q, sg.WF) ∧ (Seq.iter q).length = f.rows

def Splits {α : Type} (split : List α → List (List α)) : Prop := ∀ l, (split l).flatten = l

/-- The row id of the row at an offset: its address, or the entry of the sequence. -/
def rowIdOf {α : Type} (f : Frag α) (off : Nat) : Nat :=
  match f.seq with
  | none => f.id * U32 + off
  | some q => (Seq.iter q).getD off 0

/-- The row at an offset as a reader should see it. -/
def rowAt {α : Type} (f : Frag α) (o : Opts) (off : Nat) : Row α :=
  { data := f.file off
    id := if o.withId then .val (rowIdOf f off) else .absent
    addr := if o.withAddr then .val (f.id * U32 + off) else .absent }

/-- Offsets and row ids of the rows of a read, as the code pairs them. -/
def pairsOf {α : Type} (f : Frag α) (o : Opts) (p : Params) : List (Nat × Nat) :=
  match o.withId, f.seq with
  | true, some q => (requested p f.rows).zip (Seq.iter q)
  | _, _ => (requested p f.rows).map (fun off => (off, mkAddr f.id off))

theorem pairsOf_fst {α : Type} (f : Frag α) (o : Opts) (p : Params)
    (hl : ∀ q, f.seq = some q → o.withId = true → (requested p f.rows).length ≤ (Seq.iter q).length) :
    (pairsOf f o p).map (·.1) = requested p f.rows := by
  unfold pairsOf
  split
  · rename_i q hw hq
    exact List.map_fst_zip (hl q hq hw)
  · rw [List.map_map]; simp [Function.comp_def]

theorem map_snd_zip_take (l : List Nat) (m : List Nat) : (l.zip m).map (·.2) = m.take l.length := by
  induction l generalizing m with
  | nil => simp
  | cons a l ih =>
    cases m with
    | nil => simp
    | cons b m => simp [ih]

theorem requested_lt (p : Params) (n : Nat) (hn : n < U32) (hv : validLen p n = true) (hp : Proper p) (o : Nat)
    (ho : o ∈ requested p n) : o < n :=
  (C30_valid p n hn hp (List.ne_nil_of_mem ho)).mp hv o ho

theorem readImpl_batches {α : Type} (split : List α → List (List α)) (hsp : Splits split) (f : Frag α) (hf : f.OK)
    (o : Opts) (p : Params) (hv : validLen p f.rows = true) (hp : Proper p)
    (hl : ∀ q, f.seq = some q → o.withId = true → (requested p f.rows).length ≤ (Seq.iter q).length) :
    ∃ pbs : List (List (Nat × Nat)), pbs.flatten = pairsOf f o p ∧
      readImpl split f o p = some (pbs.map (outBatch (mkCfg f o p) f.file f.id)) ∧
      split ((toOffsetsTotal p f.rows).map f.file) = pbs.map (List.map (fun x => f.file x.1)) := by
  have hfst := pairsOf_fst f o p hl
  have hlen : (pairsOf f o p).length = (requested p f.rows).length := by
    rw [← hfst, List.length_map]
  obtain ⟨pbs, h1, h2⟩ := unflatten_map (fun x : Nat × Nat => f.file x.1)
    (split ((toOffsetsTotal p f.rows).map f.file)) (pairsOf f o p) (by
      rw [hsp, C30_offsets p f.rows hf.rows hv hp, ← hfst, List.map_map]; rfl)
  refine ⟨pbs, h1, ?_, h2⟩
  unfold readImpl
  rw [Nat.mod_eq_of_lt hf.rows, if_pos hv, h2]
  apply wrap_eq (mkCfg f o p) f.file f.id (pairsOf f o p)
  · intro x hx
    have : x.1 ∈ requested p f.rows := by rw [← hfst]; exact List.mem_map_of_mem hx
    have := requested_lt p f.rows hf.rows hv hp _ this
    have := hf.rows
    omega
  · intro off n hb
    obtain ⟨p', e1, e2⟩ := C30_slice_offsets p f.rows off n hf.rows hv hp (by omega)
    show (slice p off n).bind toOffsets = _
    rw [e1, Option.bind_some, e2, hfst]
  · intro hw
    have hw : o.withId = true := hw
    show match f.seq with
      | some q => _
      | none => _
    cases hq : f.seq with
    | none =>
      intro x hx
      unfold pairsOf at hx
      rw [hq, hw] at hx
      obtain ⟨a, _, rfl⟩ := List.mem_map.mp hx; rfl
    | some q =>
      intro off n hb
      have hs : (pairsOf f o p).map (·.2) = (Seq.iter q).take (requested p f.rows).length := by
        unfold pairsOf
        rw [hq, hw]
        simp only
        exact map_snd_zip_take _ _
      have hle := hl q hq hw
      obtain ⟨s, es, ei⟩ := Seq.C11_slice q (hf.seq q hq).1 off n (by omega)
      unfold sliceIds
      rw [es, Option.bind_some, ei, hs]
      simp only
      rw [List.drop_take, List.take_take, Nat.min_eq_left (by omega)]
  · simpa using h1
  · exact Nat.zero_le _

theorem readImpl_eq {α : Type} (split : List α → List (List α)) (hsp : Splits split) (f : Frag α) (hf : f.OK)
    (o : Opts) (p : Params) (hv : validLen p f.rows = true) (hp : Proper p)
    (hl : ∀ q, f.seq = some q → o.withId = true → (requested p f.rows).length ≤ (Seq.iter q).length) :
    ∃ pbs : List (List (Nat × Nat)), pbs.flatten = pairsOf f o p ∧
      readImpl split f o p = some (pbs.map (outBatch (mkCfg f o p) f.file f.id)) := by
  obtain ⟨pbs, h1, h2, _⟩ := readImpl_batches split hsp f hf o p hv hp hl
  exact ⟨pbs, h1, h2⟩

theorem flatten_out {α : Type} (c : Cfg) (hn : c.nulls = false) (file : Nat → α) (frag : Nat)
    (pbs : List (List (Nat × Nat))) :
    (pbs.map (outBatch c file frag)).flatten =
      (pbs.flatten.filter (fun x => live c.dv x.1)).map (mkRow file frag c.withId c.withAddr) := by
  induction pbs with
  | nil => rfl
  | cons b pbs ih =>
    simp only [List.map_cons, List.flatten_cons, List.filter_append, List.map_append, ih]
    congr 1
    simp [outBatch, hn]

/-- The rows a read should return. -/
def expected {α : Type} (f : Frag α) (o : Opts) (p : Params) : List (Row α) :=
  ((requested p f.rows).filter (live f.dv)).map (rowAt f o)

/-- C28, full statement: a read with valid parameters returns the live rows asked for, in order, each
with its own values, row id and row address. -/
def C28_statement : Prop :=
  ∀ (α : Type) (split : List α → List (List α)) (f : Frag α) (o : Opts) (p : Params),
    Splits split → f.OK → o.nulls = false → validLen p f.rows = true → Proper p →
    ∃ bs, readImpl split f o p = some bs ∧ bs.flatten = expected f o p

/-- Ten rows with the stable row ids 100..110. -/
def stableFrag : Frag Nat :=
  { id := 3, rows := 10, dv := none, seq := some [.range 100 110], file := fun o => 1000 + o }

theorem stableFrag_ok : stableFrag.OK := by
  refine ⟨by decide, by simp [stableFrag], ?_⟩
  intro q hq
  cases hq
  refine ⟨?_, by decide⟩
  intro sg hsg
  simp at hsg
  subst hsg
  exact ⟨by decide, by decide⟩

/-- C28 fails: stream.rs:219-222 slices the row id sequence by the position in the read, not by the
offset in the fragment.  Rows 5 and 6 get the row ids of rows 0 and 1. -/
theorem C28_violated : ¬ C28_statement := by
  intro h
  obtain ⟨bs, h1, h2⟩ := h Nat (fun l => [l]) stableFrag ⟨true, true, false⟩ (.range 5 7)
    (by intro l; simp) stableFrag_ok rfl (by decide) (by decide : (5 : Nat) ≤ 7)
  have h3 : readImpl (fun l => [l]) stableFrag ⟨true, true, false⟩ (.range 5 7) =
      some [[⟨1005, .val 100, .val (3 * U32 + 5)⟩, ⟨1006, .val 101, .val (3 * U32 + 6)⟩]] := by decide +kernel
  rw [h3] at h1
  cases h1
  revert h2
  decide +kernel

/-- It fails as well for reads by index: an index list longer than the fragment runs off the end of
the sequence (a panic in `RowIdSequence::slice`). -/
theorem C28_indices_panic :
    validLen (.indices [0, 0, 0, 0, 0, 0, 0, 0, 0, 0, 0]) stableFrag.rows = true ∧
    readImpl (fun l => [l]) stableFrag ⟨true, false, false⟩ (.indices [0, 0, 0, 0, 0, 0, 0, 0, 0, 0, 0]) =
      none := by
  constructor
  · decide
  · decide +kernel

/-- The reads for which row ids come out right: row ids not asked for, row ids that are addresses, or a
read that starts at the first row. -/
def IdsRight {α : Type} (f : Frag α) (o : Opts) (p : Params) : Prop :=
  o.withId = false ∨ f.seq = none ∨ p = .full ∨ (∃ e, p = .to e) ∨ (∃ e, p = .range 0 e)

theorem seqLen_ok {α : Type} (f : Frag α) (hf : f.OK) (o : Opts) (p : Params) (hv : validLen p f.rows = true)
    (hid : IdsRight f o p) (q : Seq) (hq : f.seq = some q) (hw : o.withId = true) :
    (requested p f.rows).length ≤ (Seq.iter q).length := by
  rw [(hf.seq q hq).2]
  rcases hid with h | h | h | ⟨e, h⟩ | ⟨e, h⟩
  · rw [h] at hw; cases hw
  · rw [h] at hq; cases hq
  · subst h; simp [requested]
  · subst h; simp [validLen] at hv; simp [requested]; omega
  · subst h; simp [validLen] at hv; rw [requested, range_filter_ge]; simp; omega

theorem requested_prefix {α : Type} (f : Frag α) (o : Opts) (p : Params)
    (hid : IdsRight f o p) (hw : o.withId = true) (hq : f.seq ≠ none) :
    ∃ m, requested p f.rows = List.range m := by
  rcases hid with h | h | h | ⟨e, h⟩ | ⟨e, h⟩
  · rw [h] at hw; cases hw
  · exact absurd h hq
  · subst h; exact ⟨_, rfl⟩
  · subst h; exact ⟨_, rfl⟩
  · subst h; exact ⟨e, by rw [requested]; simp⟩

/-- Under `IdsRight` the pairs are the offsets with their row ids. -/
theorem pairsOf_right {α : Type} (f : Frag α) (hf : f.OK) (o : Opts) (p : Params)
    (hv : validLen p f.rows = true) (hid : IdsRight f o p) :
    (pairsOf f o p).map (mkRow f.file f.id o.withId o.withAddr) = (requested p f.rows).map (rowAt f o) ∧
    (pairsOf f o p).map (fun x => (live f.dv x.1, mkRow f.file f.id o.withId o.withAddr x)) =
      (requested p f.rows).map (fun off => (live f.dv off, rowAt f o off)) := by
  suffices h : (pairsOf f o p).map (fun x => (live f.dv x.1, mkRow f.file f.id o.withId o.withAddr x)) =
      (requested p f.rows).map (fun off => (live f.dv off, rowAt f o off)) by
    refine ⟨?_, h⟩
    have := congrArg (List.map (·.2)) h
    simpa [List.map_map, Function.comp_def] using this
  have hl := seqLen_ok f hf o p hv hid
  unfold pairsOf
  split
  · rename_i q hw hq
    obtain ⟨m, hm⟩ := requested_prefix f o p hid hw (by rw [hq]; simp)
    have hlen := hl q hq hw
    rw [hm] at hlen ⊢
    simp at hlen
    apply List.ext_getElem
    · simp; omega
    · intro i h1 h2
      simp at h1 h2
      simp [mkRow, rowAt, cell, mkAddr, rowIdOf, hq, List.getElem?_eq_getElem (show i < (Seq.iter q).length by omega)]
  · rename_i h
    rw [List.map_map]
    apply List.map_congr_left
    intro off _
    simp only [Function.comp_apply, mkRow, rowAt, cell, mkAddr, rowIdOf]
    cases hw : o.withId with
    | false => rfl
    | true =>
      cases hq : f.seq with
      | none => rfl
      | some q => exact absurd hq (by intro hq; exact h q hw hq)

theorem filter_map_pairs {β γ α : Type} (l : List β) (m : List γ) (p : β → Bool) (q : γ → Bool) (g : β → α) (h : γ → α)
    (e : l.map (fun x => (p x, g x)) = m.map (fun x => (q x, h x))) :
    (l.filter p).map g = (m.filter q).map h := by
  induction l generalizing m with
  | nil =>
    cases m with
    | nil => rfl
    | cons b m => cases e
  | cons a l ih =>
    cases m with
    | nil => cases e
    | cons b m =>
      simp only [List.map_cons, List.cons.injEq, Prod.mk.injEq] at e
      have := ih m e.2
      simp only [List.filter_cons, e.1.1]
      split
      · simp [this, e.1.2]
      · exact this

/-- C28, what holds: with deletions filtered out, every read in `IdsRight` returns exactly the live
rows asked for, in order, with their own row ids and addresses, however the file readers cut batches.
Missing: stable row ids in reads that do not start at the first row. -/
theorem C28_rows_partial {α : Type} (split : List α → List (List α)) (f : Frag α) (o : Opts) (p : Params)
    (hsp : Splits split) (hf : f.OK) (hn : o.nulls = false) (hv : validLen p f.rows = true) (hp : Proper p)
    (hid : IdsRight f o p) :
    ∃ bs, readImpl split f o p = some bs ∧ bs.flatten = expected f o p := by
  obtain ⟨pbs, h1, h2⟩ := readImpl_eq split hsp f hf o p hv hp (seqLen_ok f hf o p hv hid)
  refine ⟨_, h2, ?_⟩
  rw [flatten_out (mkCfg f o p) hn, h1]
  exact filter_map_pairs _ _ _ _ _ _ (pairsOf_right f hf o p hv hid).2

/-- Five rows of which 0 and 3 are deleted; row ids are addresses. -/
def plainFrag : Frag Nat :=
  { id := 2, rows := 5, dv := some (.set [3, 0]), seq := none, file := fun o => 50 + o }

theorem plainFrag_ok : plainFrag.OK := by
  refine ⟨by decide, ?_, by simp [plainFrag]⟩
  intro d hd
  cases hd
  refine ⟨by simp [DV.WF], ?_⟩
  intro o ho
  simp [DV.contains] at ho
  rcases ho with rfl | rfl <;> decide

example : ∃ bs, readImpl (fun l => [l.take 2, l.drop 2]) plainFrag ⟨true, true, false⟩ (.indices [4, 3, 1, 1]) =
    some bs ∧ bs.flatten = [⟨54, .val (2 * U32 + 4), .val (2 * U32 + 4)⟩, ⟨51, .val (2 * U32 + 1), .val (2 * U32 + 1)⟩,
      ⟨51, .val (2 * U32 + 1), .val (2 * U32 + 1)⟩] :=
  C28_rows_partial (fun l => [l.take 2, l.drop 2]) plainFrag ⟨true, true, false⟩ (.indices [4, 3, 1, 1])
    (by intro l; simp) plainFrag_ok rfl (by decide) trivial (Or.inr (Or.inl rfl))

/-- C28, exact behaviour with stable row ids: values and addresses are right for every read, and the
row id of the `i`-th row asked for is entry `i` of the sequence (right only if the offset is `i`). -/
theorem C28_position {α : Type} (split : List α → List (List α)) (f : Frag α) (o : Opts) (p : Params) (q : Seq)
    (hsp : Splits split) (hf : f.OK) (hn : o.nulls = false) (hv : validLen p f.rows = true) (hp : Proper p)
    (hw : o.withId = true) (hq : f.seq = some q) (hlen : (requested p f.rows).length ≤ f.rows) :
    ∃ bs, readImpl split f o p = some bs ∧
      bs.flatten = (((requested p f.rows).zip (Seq.iter q)).filter (fun x => live f.dv x.1)).map (fun x =>
        { data := f.file x.1, id := .val x.2, addr := if o.withAddr then .val (f.id * U32 + x.1) else .absent }) := by
  obtain ⟨pbs, h1, h2⟩ := readImpl_eq split hsp f hf o p hv hp (by
    intro q' hq' _; rw [(hf.seq q' hq').2]; exact hlen)
  refine ⟨_, h2, ?_⟩
  rw [flatten_out (mkCfg f o p) hn, h1]
  have : pairsOf f o p = (requested p f.rows).zip (Seq.iter q) := by
    unfold pairsOf; rw [hw, hq]
  rw [this]
  apply List.map_congr_left
  intro x _
  simp [mkRow, mkCfg, cell, hw, mkAddr]

/-! ## Deleted rows as nulls -/

/-- A row whose meta columns are not null. -/
def Row.marked {α : Type} (r : Row α) : Bool := !(decide (r.id = .null) || decide (r.addr = .null))

theorem outBatch_nulls {α : Type} (c : Cfg) (hn : c.nulls = true) (hm : c.withId = true ∨ c.withAddr = true)
    (file : Nat → α) (frag : Nat) (pb : List (Nat × Nat)) :
    (outBatch c file frag pb).filter Row.marked =
      (pb.filter (fun x => live c.dv x.1)).map (mkRow file frag c.withId c.withAddr) := by
  have h1 : ∀ x, (mkRow file frag c.withId c.withAddr x).marked = true := by
    intro x; simp only [mkRow, Row.marked, cell]
    cases c.withId <;> cases c.withAddr <;> simp
  have h2 : ∀ x, (nullRow (mkRow file frag c.withId c.withAddr x)).marked = false := by
    intro x; simp only [mkRow, Row.marked, cell, nullRow]
    rcases hm with hm | hm <;> rw [hm] <;> simp [Cell.nullify]
  unfold outBatch
  simp only [hn, if_true]
  split
  · rename_i h
    rw [List.all_eq_true] at h
    have : pb.filter (fun x => live c.dv x.1) = [] := by
      rw [List.filter_eq_nil_iff]
      intro x hx; simpa using h x hx
    rw [this]; rfl
  · clear hn
    induction pb with
    | nil => rfl
    | cons a l ih =>
      rename_i hne
      simp only [List.map_cons, List.filter_cons]
      have ih' : (l.map (fun x => if live c.dv x.1 then mkRow file frag c.withId c.withAddr x
          else nullRow (mkRow file frag c.withId c.withAddr x))).filter Row.marked =
          (l.filter (fun x => live c.dv x.1)).map (mkRow file frag c.withId c.withAddr) := by
        by_cases hl : (l.all (fun x => !live c.dv x.1)) = true
        · rw [List.all_eq_true] at hl
          rw [List.filter_eq_nil_iff.mpr, List.filter_eq_nil_iff.mpr]
          · rfl
          · intro x hx; simpa using hl x hx
          · intro r hr
            rw [List.mem_map] at hr
            obtain ⟨x, hx, rfl⟩ := hr
            have : live c.dv x.1 = false := by simpa using hl x hx
            simp [this, h2]
        · exact ih hl
      cases hv : live c.dv a.1 with
      | true => simp [h1, ih']
      | false => simp [h2, ih']

/-- C28 with deletions shown as nulls: the rows whose row id or address is not null are exactly the
live rows asked for, and every other returned row is a deleted row asked for, with null in each of
those columns.  (A batch of deleted rows only is left out.)  Needs one of the two columns. -/
theorem C28_nulls_partial {α : Type} (split : List α → List (List α)) (f : Frag α) (o : Opts) (p : Params)
    (hsp : Splits split) (hf : f.OK) (hn : o.nulls = true) (hm : o.withId = true ∨ o.withAddr = true)
    (hv : validLen p f.rows = true) (hp : Proper p) (hid : IdsRight f o p) :
    ∃ bs, readImpl split f o p = some bs ∧ bs.flatten.filter Row.marked = expected f o p ∧
      ∀ r ∈ bs.flatten, r.marked = false → ∃ off ∈ requested p f.rows, live f.dv off = false ∧
        r.data = f.file off ∧ (o.withId = true → r.id = .null) ∧ (o.withAddr = true → r.addr = .null) := by
  obtain ⟨pbs, h1, h2⟩ := readImpl_eq split hsp f hf o p hv hp (seqLen_ok f hf o p hv hid)
  refine ⟨_, h2, ?_, ?_⟩
  · have key : ∀ pbs : List (List (Nat × Nat)),
        ((pbs.map (outBatch (mkCfg f o p) f.file f.id)).flatten).filter Row.marked =
        (pbs.flatten.filter (fun x => live f.dv x.1)).map (mkRow f.file f.id o.withId o.withAddr) := by
      intro pbs
      induction pbs with
      | nil => rfl
      | cons b pbs ih =>
        simp only [List.map_cons, List.flatten_cons, List.filter_append, List.map_append, ih]
        rw [outBatch_nulls (mkCfg f o p) hn hm]; rfl
    rw [key, h1]
    exact filter_map_pairs _ _ _ _ _ _ (pairsOf_right f hf o p hv hid).2
  · intro r hr hnull
    rw [List.mem_flatten] at hr
    obtain ⟨b, hb, hrb⟩ := hr
    rw [List.mem_map] at hb
    obtain ⟨pb, hpb, rfl⟩ := hb
    unfold outBatch at hrb
    rw [show (mkCfg f o p).nulls = true from hn] at hrb
    simp only [if_true] at hrb
    split at hrb
    · cases hrb
    · rw [List.mem_map] at hrb
      obtain ⟨x, hx, rfl⟩ := hrb
      have hx' : x.1 ∈ requested p f.rows := by
        rw [← pairsOf_fst f o p (seqLen_ok f hf o p hv hid), ← h1]
        exact List.mem_map_of_mem (List.mem_flatten_of_mem hpb hx)
      refine ⟨x.1, hx', ?_⟩
      cases hl : live (mkCfg f o p).dv x.1 with
      | true =>
        rw [hl] at hnull
        simp only [if_true, mkRow, Row.marked, cell, mkCfg] at hnull
        cases h1 : o.withId <;> cases h2 : o.withAddr <;> simp [h1, h2] at hnull
      | false =>
        simp only [Bool.false_eq_true, if_false, nullRow, mkRow, mkCfg, cell]
        refine ⟨hl, trivial, ?_, ?_⟩
        · intro hw; simp [hw, Cell.nullify]
        · intro hw; simp [hw, Cell.nullify]

example : readImpl (fun l => [l.take 1, l.drop 1]) plainFrag ⟨true, false, true⟩ .full =
    some [[], [⟨51, .val (2 * U32 + 1), .absent⟩, ⟨52, .val (2 * U32 + 2), .absent⟩, ⟨53, .null, .absent⟩,
      ⟨54, .val (2 * U32 + 4), .absent⟩]] := by decide +kernel

/-! ## Reads without columns -/

/-- C28: a read of meta columns only makes batches that have together as many rows as were asked for,
none of them larger than the batch size. -/
theorem C28_no_columns (batchSize : Nat) (hb : 0 < batchSize) (fuel selected : Nat) (hf : selected ≤ fuel) :
    (emptyBatches batchSize fuel selected).flatten = List.replicate selected () ∧
    ∀ b ∈ emptyBatches batchSize fuel selected, 0 < b.length ∧ b.length ≤ batchSize := by
  induction fuel generalizing selected with
  | zero =>
    have : selected = 0 := by omega
    subst this; simp [emptyBatches]
  | succ n ih =>
    unfold emptyBatches
    split
    · rename_i h; subst h; simp
    · obtain ⟨h1, h2⟩ := ih (selected - batchSize) (by omega)
      constructor
      · rw [List.flatten_cons, h1, List.replicate_append_replicate]
        congr 1; omega
      · intro b hb'
        rcases List.mem_cons.mp hb' with rfl | hb'
        · simp; omega
        · exact h2 b hb'

example : (emptyBatches 4 10 10).map List.length = [4, 4, 2] := by decide

/-! ## Legacy batches -/

/-- C28, legacy files: reading offsets of one stored batch gives the live rows with their row ids and
addresses, when row ids are addresses (or not asked for).  Missing: stable row ids, see
`C28_legacy_violated`. -/
theorem C28_legacy_partial {α : Type} (f : Frag α) (hf : f.OK) (o : Opts) (hn : o.nulls = false)
    (batchRows rowsInBatch batchId : Nat) (p : Params) (hr : 0 < rowsInBatch)
    (hb : batchId * batchRows + rowsInBatch ≤ f.rows) (hv : validLen p rowsInBatch = true) (hp : Proper p)
    (hid : o.withId = false ∨ f.seq = none) :
    legacyReadBatch f o batchRows rowsInBatch batchId p =
      some ((((requested p rowsInBatch).map (fun i => batchId * batchRows + i)).filter (live f.dv)).map (rowAt f o)) := by
  have hrows := hf.rows
  generalize hbo : batchId * batchRows = bo at hb
  have hoff := C30_file_params p bo rowsInBatch (by omega) hv hp
  have hlt : ∀ i ∈ requested p rowsInBatch, i < rowsInBatch :=
    fun i hi => requested_lt p rowsInBatch (by omega) hv hp i hi
  -- the file parameters are valid for the first `bo + rowsInBatch` rows
  have hv' : validLen (fileParams bo rowsInBatch p) (bo + rowsInBatch) = true := by
    cases p with
    | range s e => simp [validLen, fileParams] at hv ⊢; omega
    | full => simp [validLen, fileParams]; omega
    | to e => simp [validLen, fileParams] at hv ⊢; omega
    | «from» s => simp [validLen, fileParams] at hv ⊢; omega
    | indices l =>
      simp only [validLen, fileParams, Nat.mod_eq_of_lt (show rowsInBatch < U32 by omega),
        Nat.mod_eq_of_lt (show bo < U32 by omega), Nat.mod_eq_of_lt (show bo + rowsInBatch < U32 by omega),
        List.all_map, List.all_eq_true, decide_eq_true_eq, Function.comp_apply] at hv ⊢
      intro x hx; have := hv x hx; omega
  have hp' : Proper (fileParams bo rowsInBatch p) := by
    cases p with
    | range s e => have hp : s ≤ e := hp; show s + bo ≤ e + bo; omega
    | full => show bo ≤ bo + rowsInBatch; omega
    | to e => show bo ≤ e + bo; omega
    | «from» s => simp [validLen] at hv; show s + bo ≤ bo + rowsInBatch; omega
    | indices l => trivial
  have hreq : requested (fileParams bo rowsInBatch p) (bo + rowsInBatch) =
      (requested p rowsInBatch).map (fun i => bo + i) := by
    rw [← C30_offsets _ _ (by omega) hv' hp']
    exact (C30_to_offsets _ _ _ hoff).symm
  unfold legacyReadBatch
  rw [C30_offsets p rowsInBatch (by omega) hv hp, hbo]
  obtain ⟨p', e1, e2⟩ := C30_slice_offsets (fileParams bo rowsInBatch p) (bo + rowsInBatch) 0
    (requested p rowsInBatch).length (by omega) hv' hp' (by rw [hreq]; simp)
  have key := applyBatch_eq (mkCfg f o (fileParams bo rowsInBatch p)) f.file f.id 0
    (((requested p rowsInBatch).map (fun i => bo + i)).map (fun off => (off, mkAddr f.id off)))
    (by
      intro x hx
      simp only [List.mem_map] at hx
      obtain ⟨a, ⟨i, hi, rfl⟩, rfl⟩ := hx
      have := hlt i hi
      show bo + i < U32
      omega)
    (by
      show (slice (fileParams bo rowsInBatch p) 0 _).bind toOffsets = _
      simp only [List.length_map]
      rw [e1, Option.bind_some, e2, hreq, List.drop_zero, List.take_of_length_le (by simp)]
      simp [Function.comp_def])
    (by
      intro hw
      have hs : (mkCfg f o (fileParams bo rowsInBatch p)).seq = none := by
        rcases hid with h | h
        · rw [show (mkCfg f o (fileParams bo rowsInBatch p)).withId = o.withId from rfl, h] at hw; cases hw
        · exact h
      rw [hs]
      simp only
      intro x hx
      rw [List.mem_map] at hx
      obtain ⟨a, _, rfl⟩ := hx; rfl)
  simp only [List.map_map, Function.comp_def] at key ⊢
  rw [key]
  congr 1
  unfold outBatch
  rw [show (mkCfg f o (fileParams bo rowsInBatch p)).nulls = false from hn]
  simp only [Bool.false_eq_true, if_false]
  apply filter_map_pairs
  rw [List.map_map, List.map_map]
  apply List.map_congr_left
  intro i _
  show (live f.dv (bo + i), mkRow f.file f.id o.withId o.withAddr (bo + i, mkAddr f.id (bo + i))) =
    (live f.dv (bo + i), rowAt f o (bo + i))
  simp only [mkRow, rowAt, cell, mkAddr, rowIdOf]
  rcases hid with h | h
  · simp [h]
  · simp [h]

/-- The legacy read loses track of stable row ids: batch 1 gets the ids of batch 0. -/
theorem C28_legacy_violated :
    legacyReadBatch stableFrag ⟨true, false, false⟩ 5 5 1 .full =
      some [⟨1005, .val 100, .absent⟩, ⟨1006, .val 101, .absent⟩, ⟨1007, .val 102, .absent⟩,
        ⟨1008, .val 103, .absent⟩, ⟨1009, .val 104, .absent⟩] ∧
    rowIdOf stableFrag 5 = 105 := by
  constructor
  · decide +kernel
  · decide

end Verif.Read
