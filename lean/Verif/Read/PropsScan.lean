import Verif.Read.PropsRows

/-!
# C54: range reads, limit and offset

`liveRows f o` are the live rows of a fragment in order; a scan sees the concatenation over the
fragments.
-/
namespace Verif.Read
open Verif
open Verif.Deletion (DV patchRange liveBelow countBelow)
open Verif.RowIds (Seq Seg)
open Verif.RowIds.Seq (Params sliceIds)

/-- Offsets of the live rows. -/
def liveOffsets {α : Type} (f : Frag α) : List Nat := (List.range f.rows).filter (live f.dv)

/-- The live rows of a fragment, in order. -/
def liveRows {α : Type} (o : Opts) (f : Frag α) : List (Row α) := (liveOffsets f).map (rowAt f o)

/-- In a list numbered from `c`, the elements with numbers in `s..e`. -/
theorem window_filter {β : Type} (k : β → Nat) (l : List β) (c s e : Nat)
    (h : l.map k = List.range' c l.length) :
    l.filter (fun x => decide (s ≤ k x) && decide (k x < e)) = (l.drop (s - c)).take (e - max s c) := by
  induction l generalizing c with
  | nil => simp
  | cons a l ih =>
    simp only [List.map_cons, List.length_cons, List.range'_succ, List.cons.injEq] at h
    have := ih (c + 1) h.2
    simp only [List.filter_cons, h.1, this]
    by_cases h1 : s ≤ c
    · rw [show s - c = 0 by omega, show s - (c + 1) = 0 by omega]
      by_cases h2 : c < e
      · simp only [h1, h2, decide_true, Bool.and_self, if_true, List.drop_zero]
        rw [show e - max s c = (e - max s (c + 1)) + 1 by omega]
        rfl
      · simp only [h1, h2, decide_true, decide_false, Bool.and_false, Bool.false_eq_true, if_false, List.drop_zero]
        rw [show e - max s c = 0 by omega, show e - max s (c + 1) = 0 by omega]
        simp
    · simp only [h1, decide_false, Bool.false_and, Bool.false_eq_true, if_false]
      rw [show s - c = (s - (c + 1)) + 1 by omega, List.drop_succ_cons,
        show max s c = max s (c + 1) by omega]

theorem map_liveBelow (del : Nat → Bool) (n : Nat) :
    (((List.range n).filter (fun i => !del i)).map (liveBelow del) =
      List.range' 0 ((List.range n).filter (fun i => !del i)).length) ∧
    ((List.range n).filter (fun i => !del i)).length = liveBelow del n := by
  induction n with
  | zero => exact ⟨rfl, rfl⟩
  | succ n ih =>
    rw [List.range_succ, List.filter_append, List.map_append, ih.1, Deletion.liveBelow_succ]
    cases hd : del n with
    | true => simp [hd, ih.2]
    | false =>
      simp only [hd, List.filter_cons, Bool.not_false, if_true, List.filter_nil, List.map_cons, List.map_nil,
        List.length_append, List.length_cons, List.length_nil, ih.2]
      refine ⟨?_, by simp⟩
      rw [List.range'_concat]; simp

theorem countRows_eq {α : Type} (f : Frag α) (hf : f.OK) : countRows f = (liveOffsets f).length := by
  unfold countRows liveOffsets
  cases hd : f.dv with
  | none =>
    rw [List.filter_eq_self.mpr (by simp [live])]; simp
  | some d =>
    obtain ⟨hw, hb⟩ := hf.dv d hd
    show f.rows - d.len = ((List.range f.rows).filter (fun i => !d.contains i)).length
    rw [(map_liveBelow d.contains f.rows).2]
    have h1 := Deletion.len_eq_countBelow d hw f.rows hb
    have h2 := Deletion.deleted_live d.contains f.rows
    omega

/-- The rows at requested offsets of a physical range, among the live ones. -/
theorem requested_range_live {α : Type} (f : Frag α) (a b : Nat) (hb : b ≤ f.rows) :
    (requested (.range a b) f.rows).filter (live f.dv) =
      (liveOffsets f).filter (fun x => decide (a ≤ x) && decide (x < b)) := by
  have h1 : List.range b = (List.range f.rows).filter (fun x => decide (x < b)) := by
    obtain ⟨k, hk⟩ := Nat.exists_eq_add_of_le hb
    rw [hk, List.range_eq_range', List.range_eq_range', ← List.range'_append_1 (s := 0) (m := b) (n := k),
      List.filter_append, List.filter_eq_self.mpr, List.filter_eq_nil_iff.mpr]
    · simp
    · intro x hx; simp [List.mem_range'_1] at hx; simp; omega
    · intro x hx; simp [List.mem_range'_1] at hx; simp; omega
  unfold liveOffsets
  show ((List.range b).filter (fun o => decide (a ≤ o))).filter (live f.dv) = _
  rw [h1, List.filter_filter, List.filter_filter, List.filter_filter]
  congr 1
  funext x
  cases live f.dv x <;> cases decide (a ≤ x) <;> cases decide (x < b) <;> rfl

/-- C54: reading the live rows numbered `s..e` of a fragment returns exactly those, in order (row ids
right if they are addresses or not asked for). -/
theorem C54_read_range {α : Type} (split : List α → List (List α)) (hsp : Splits split) (f : Frag α) (hf : f.OK)
    (o : Opts) (hn : o.nulls = false) (hid : o.withId = false ∨ f.seq = none) (s e : Nat) (hse : s < e)
    (he : e ≤ (liveOffsets f).length) :
    ∃ bs, readRange split f o s e = some bs ∧ bs.flatten = ((liveRows o f).drop s).take (e - s) := by
  have hid' : ∀ p, IdsRight f o p := by
    intro p
    rcases hid with h | h
    · exact Or.inl h
    · exact Or.inr (Or.inl h)
  unfold readRange
  cases hd : f.dv with
  | none =>
    have hall : liveOffsets f = List.range f.rows := by
      unfold liveOffsets; rw [hd]; exact List.filter_eq_self.mpr (by simp [live])
    rw [hall, List.length_range] at he
    obtain ⟨bs, h1, h2⟩ := C28_rows_partial split f o (.range s e) hsp hf hn (by simp [validLen]; omega)
      (show s ≤ e by omega) (hid' _)
    refine ⟨bs, h1, ?_⟩
    rw [h2, expected, requested_range_live f s e he, liveRows, ← List.map_drop, ← List.map_take, hall]
    congr 1
    have := window_filter (fun x : Nat => x) (List.range f.rows) 0 s e (by simp [List.range_eq_range'])
    rw [this]; simp
  | some d =>
    obtain ⟨hw, hb⟩ := hf.dv d hd
    obtain ⟨c1, c2, c3⟩ := Deletion.C06_range_read d hw s e (by omega)
    obtain ⟨c4, c5⟩ := c2 hse
    simp only
    generalize patchRange d s e = r at c1 c3 c4 c5 ⊢
    have hlive : liveOffsets f = (List.range f.rows).filter (fun i => !d.contains i) := by
      unfold liveOffsets; rw [hd]; rfl
    obtain ⟨m1, m2⟩ := map_liveBelow d.contains f.rows
    rw [hlive, m2] at he
    have hlt : r.1 < r.2 := by
      rcases Nat.lt_or_ge r.1 r.2 with h | h
      · exact h
      · exfalso
        -- the row numbered `s` is live and inside
        obtain ⟨a, ha⟩ := Deletion.nthLive_exists d hw s
        have := (c1 a ha.1.1).mpr ⟨by rw [ha.1.2]; omega, by rw [ha.1.2]; exact hse⟩
        omega
    have hend : r.2 ≤ f.rows := by
      have h1 := ((c1 (r.2 - 1) c5).mp ⟨by omega, by omega⟩).2
      rcases Nat.lt_or_ge (r.2 - 1) f.rows with h | h
      · omega
      · have := Deletion.liveBelow_mono d.contains h
        omega
    obtain ⟨bs, h1, h2⟩ := C28_rows_partial split f o (.range r.1 r.2) hsp hf hn
      (by simp [validLen]; omega) c3 (hid' _)
    refine ⟨bs, h1, ?_⟩
    rw [h2, expected, requested_range_live f _ _ hend, liveRows, ← List.map_drop, ← List.map_take, hlive]
    congr 1
    have := window_filter (liveBelow d.contains) ((List.range f.rows).filter (fun i => !d.contains i)) 0 s e m1
    rw [Nat.sub_zero, Nat.max_eq_left (Nat.zero_le s)] at this
    rw [← this]
    apply List.filter_congr
    intro x hx
    rw [List.mem_filter] at hx
    have hx2 : d.contains x = false := by simpa using hx.2
    have := c1 x hx2
    rw [Bool.eq_iff_iff]
    simp only [Bool.and_eq_true, decide_eq_true_eq]
    exact this

example : ∃ bs, readRange (fun l => [l]) plainFrag ⟨false, true, false⟩ 1 3 = some bs ∧
    bs.flatten = [⟨52, .absent, .val (2 * U32 + 2)⟩, ⟨54, .absent, .val (2 * U32 + 4)⟩] :=
  C54_read_range (fun l => [l]) (by intro l; simp) plainFrag plainFrag_ok ⟨false, true, false⟩ rfl (Or.inl rfl) 1 3
    (by decide) (by decide)

/-- C54, the documentation of `read_range` (fragment.rs:2094-2095): it "will always return
range.len().min(self.num_rows()) rows". -/
def C54_read_range_statement : Prop :=
  ∀ (split : List Nat → List (List Nat)) (f : Frag Nat) (o : Opts) (s e : Nat), Splits split → f.OK →
    o.nulls = false → s ≤ e →
    ∃ bs, readRange split f o s e = some bs ∧ bs.flatten.length = min (e - s) (countRows f)

/-- It fails: a range past the last live row is an error, and so is an empty range at the end. -/
theorem C54_read_range_violated : ¬ C54_read_range_statement := by
  intro h
  obtain ⟨bs, h1, _⟩ := h (fun l => [l]) plainFrag ⟨false, true, false⟩ 1 4 (by intro l; simp) plainFrag_ok rfl (by decide)
  have : readRange (fun l => [l]) plainFrag ⟨false, true, false⟩ 1 4 = none := by decide +kernel
  rw [this] at h1; cases h1

/-! ## Scans of several fragments -/

/-- All live rows of the fragments, in order. -/
def allRows {α : Type} (o : Opts) (frags : List (Frag α)) : List (Row α) := frags.flatMap (liveRows o)

/-- Row ids are not asked for, or are addresses. -/
def PlainIds {α : Type} (o : Opts) (frags : List (Frag α)) : Prop :=
  o.withId = false ∨ ∀ f ∈ frags, f.seq = none

theorem scanAll_eq {α : Type} (split : List α → List (List α)) (hsp : Splits split) (o : Opts) (hn : o.nulls = false)
    (frags : List (Frag α)) (hf : ∀ f ∈ frags, f.OK) :
    concatReads (frags.map (fun f => readAll split f o)) = some (allRows o frags) := by
  induction frags with
  | nil => rfl
  | cons f fs ih =>
    obtain ⟨bs, h1, h2⟩ := C28_rows_partial split f o .full hsp (hf f (by simp)) hn rfl trivial
      (Or.inr (Or.inr (Or.inl rfl)))
    have ih := ih (fun g hg => hf g (List.mem_cons_of_mem _ hg))
    simp only [List.map_cons, readAll] at ih ⊢
    rw [h1]
    simp only [concatReads, ih]
    rw [h2]; rfl

/-- C54: a full scan returns the live rows of the fragments in order, each with its own row id and
address. -/
theorem C54_scan_all {α : Type} (split : List α → List (List α)) (hsp : Splits split) (o : Opts) (hn : o.nulls = false)
    (frags : List (Frag α)) (hf : ∀ f ∈ frags, f.OK) :
    scanV2 split o frags none = some (allRows o frags) ∧ scanV1 split o frags = some (allRows o frags) :=
  ⟨scanAll_eq split hsp o hn frags hf, scanAll_eq split hsp o hn frags hf⟩

theorem length_liveRows {α : Type} (o : Opts) (f : Frag α) : (liveRows o f).length = (liveOffsets f).length := by
  simp [liveRows]

theorem divide_eq {α : Type} (split : List α → List (List α)) (hsp : Splits split) (o : Opts) (hn : o.nulls = false)
    (frags : List (Frag α)) (hf : ∀ f ∈ frags, f.OK) (hid : PlainIds o frags) (skip take : Nat) :
    concatReads ((divide frags skip take).map (fun x => readRange split x.1 o x.2.1 x.2.2)) =
      some (((allRows o frags).drop skip).take take) := by
  induction frags generalizing skip take with
  | nil => simp [divide, concatReads, allRows]
  | cons f fs ih =>
    have hff := hf f (by simp)
    have hfs : ∀ g ∈ fs, g.OK := fun g hg => hf g (List.mem_cons_of_mem _ hg)
    have hids : PlainIds o fs := by
      rcases hid with h | h
      · exact Or.inl h
      · exact Or.inr (fun g hg => h g (List.mem_cons_of_mem _ hg))
    have hidf : o.withId = false ∨ f.seq = none := by
      rcases hid with h | h
      · exact Or.inl h
      · exact Or.inr (h f (by simp))
    have hc := countRows_eq f hff
    have hlen := length_liveRows o f
    have hle : (liveOffsets f).length ≤ f.rows := by
      have := List.length_filter_le (live f.dv) (List.range f.rows)
      simpa [liveOffsets] using this
    have hrows := hff.rows
    have hall : allRows o (f :: fs) = liveRows o f ++ allRows o fs := rfl
    unfold divide
    split
    · rename_i h; subst h; simp [concatReads]
    · rename_i ht
      split
      · rename_i hs
        rw [ih hfs hids, hall, List.drop_append, List.drop_of_length_le (l := liveRows o f) (by omega), List.nil_append, hlen, hc]
      · rename_i hs
        obtain ⟨bs, h1, h2⟩ := C54_read_range split hsp f hff o hn hidf skip
          (skip + min (countRows f - skip) take) (by omega) (by omega)
        simp only [List.map_cons]
        rw [Nat.mod_eq_of_lt (show skip < U32 by omega),
          Nat.mod_eq_of_lt (show skip + min (countRows f - skip) take < U32 by omega), h1]
        simp only [concatReads, ih hfs hids]
        rw [h2, hall, List.drop_append, List.take_append, List.length_drop, hlen,
          show skip - (liveOffsets f).length = 0 by omega, List.drop_zero, Nat.add_sub_cancel_left, hc]
        congr 2
        · rcases Nat.le_total ((liveOffsets f).length - skip) take with h | h
          · rw [Nat.min_eq_left h, List.take_of_length_le (by simp [hlen]), List.take_of_length_le (by simp [hlen]; omega)]
          · rw [Nat.min_eq_right h]
        · congr 1; omega

/-- C54: a scan of a row range returns exactly the rows with those numbers, across fragments, whatever
the deletions (row ids as in `C54_read_range`). -/
theorem C54_scan_range {α : Type} (split : List α → List (List α)) (hsp : Splits split) (o : Opts) (hn : o.nulls = false)
    (frags : List (Frag α)) (hf : ∀ f ∈ frags, f.OK) (hid : PlainIds o frags) (s e : Nat) :
    scanV2 split o frags (some (s, e)) = some (((allRows o frags).drop s).take (e - s)) :=
  divide_eq split hsp o hn frags hf hid s (e - s)

/-! ## Limit and offset -/

/-- What a scan should return: the rows that match, sorted, from the offset on, at most `limit`. -/
def wanted {α : Type} (s : Scanner α) (rows : List (Row α)) : List (Row α) :=
  let matching := rows.filter (fun r => match s.filter with | none => true | some p => p r.data)
  let sorted := match s.order with | none => matching | some key => sortBy (fun r => key r.data) matching
  let rest := match s.offset with | none => sorted | some o => sorted.drop o
  match s.limit with | none => rest | some l => rest.take l

/-- C54, full statement. -/
def C54_limit_statement : Prop :=
  ∀ (split : List Nat → List (List Nat)) (legacy : Bool) (s : Scanner Nat) (o : Opts) (frags : List (Frag Nat))
    (numRows : Nat), Splits split → (∀ f ∈ frags, f.OK) → o.nulls = false → PlainIds o frags →
    (allRows o frags).length ≤ numRows → numRows < I63 →
    runScan split legacy s o frags numRows = some (wanted s (allRows o frags))

/-- Three rows 30, 20, 10. -/
def descFrag : Frag Nat :=
  { id := 0, rows := 3, dv := none, seq := none, file := fun o => 30 - 10 * o }

theorem descFrag_ok : descFrag.OK := ⟨by decide, by simp [descFrag], by simp [descFrag]⟩

/-- C54 fails for sorted scans: scanner.rs:1401-1406 gives the limit to the scan although the sort comes
after it.  The smallest of 30, 20, 10 is said to be 30. -/
theorem C54_order_violated : ¬ C54_limit_statement := by
  intro h
  have h1 := h (fun l => [l]) false ⟨none, some id, some 1, none⟩ ⟨false, false, false⟩ [descFrag] 3
    (by intro l; simp) (by intro f hf; simp at hf; subst hf; exact descFrag_ok) rfl (Or.inl rfl) (by decide) (by decide)
  have h2 : runScan (fun l => [l]) false ⟨none, some id, some 1, none⟩ ⟨false, false, false⟩ [descFrag] 3 =
      some [⟨30, .absent, .absent⟩] := by decide +kernel
  rw [h2] at h1
  revert h1
  decide +kernel

/-- C54 fails for `limit(0)` with a filter (or with legacy files): scanner.rs:1485 takes a limit of 0
for no limit. -/
theorem C54_zero_violated : ¬ C54_limit_statement := by
  intro h
  have h1 := h (fun l => [l]) false ⟨some (fun x => decide (x < 25)), none, some 0, none⟩ ⟨false, false, false⟩ [descFrag] 3
    (by intro l; simp) (by intro f hf; simp at hf; subst hf; exact descFrag_ok) rfl (Or.inl rfl) (by decide) (by decide)
  have h2 : runScan (fun l => [l]) false ⟨some (fun x => decide (x < 25)), none, some 0, none⟩ ⟨false, false, false⟩
      [descFrag] 3 = some [⟨20, .absent, .absent⟩, ⟨10, .absent, .absent⟩] := by decide +kernel
  rw [h2] at h1
  revert h1
  decide +kernel

/-- Whether limit and offset are given to the scan. -/
def pushed {α : Type} (legacy : Bool) (s : Scanner α) : Prop :=
  legacy = false ∧ s.filter = none ∧ (s.limit ≠ none ∨ s.offset ≠ none)

theorem rangeEnd_take {β : Type} (rows : List β) (o l n : Nat) (h : rows.length ≤ n) :
    (rows.drop (min o n)).take (rangeEnd o l n - min o n) = (rows.drop o).take l := by
  unfold rangeEnd
  split
  · rcases Nat.le_total o n with ho | ho
    · rw [Nat.min_eq_left ho]
      rcases Nat.le_total (o + l) n with hl | hl
      · rw [Nat.min_eq_left hl, Nat.add_sub_cancel_left]
      · rw [Nat.min_eq_right hl, List.take_of_length_le (by simp; omega), List.take_of_length_le (by simp; omega)]
    · rw [Nat.min_eq_right ho, List.drop_of_length_le h, List.drop_of_length_le (by omega)]; simp
  · rename_i hov
    rcases Nat.le_total o n with ho | ho
    · rw [Nat.min_eq_left ho, Nat.add_sub_cancel_left]
    · rw [Nat.min_eq_right ho, List.drop_of_length_le h, List.drop_of_length_le (by omega)]; simp

/-- C54, what holds: limit and offset give the rows they should, across fragments and deletions, unless
a sort follows a scan that was given the limit, or the limit is 0 without an offset in a scan that was
not. -/
theorem C54_limit_partial {α : Type} (split : List α → List (List α)) (hsp : Splits split) (legacy : Bool)
    (s : Scanner α) (o : Opts) (hn : o.nulls = false) (frags : List (Frag α)) (hf : ∀ f ∈ frags, f.OK)
    (hid : PlainIds o frags) (numRows : Nat) (hr : (allRows o frags).length ≤ numRows)
    (hsort : pushed legacy s → s.order = none)
    (hzero : ¬ pushed legacy s → s.offset = none → s.limit ≠ some 0) :
    runScan split legacy s o frags numRows = some (wanted s (allRows o frags)) := by
  obtain ⟨e1, e2⟩ := C54_scan_all split hsp o hn frags hf
  have hrange := fun a b => C54_scan_range split hsp o hn frags hf hid a b
  by_cases hp : pushed legacy s
  · obtain ⟨hl, hfil, hlo⟩ := hp
    have hs := hsort ⟨hl, hfil, hlo⟩
    subst hl
    unfold runScan wanted
    have hfs : (allRows o frags).filter (fun _ => true) = allRows o frags := List.filter_eq_self.mpr (by simp)
    simp only [hfil, hs, hfs, sortStage, filterStage, scanRange, hasLimitNode, Bool.false_eq_true, if_false]
    cases hlim : s.limit with
    | none =>
      cases hoff : s.offset with
      | none => simp [hlim, hoff] at hlo
      | some off =>
        simp only [hrange]
        simp only [Option.isSome_some, Bool.not_false, Bool.and_self, Bool.not_true, Bool.false_and,
          Bool.false_eq_true, if_false, Option.some.injEq]
        rw [List.take_of_length_le (by simp; omega)]
        rcases Nat.le_total off numRows with h | h
        · rw [Nat.min_eq_left h]
        · rw [Nat.min_eq_right h, List.drop_of_length_le hr, List.drop_of_length_le (by omega)]
    | some l =>
      cases hoff : s.offset with
      | none =>
        simp only [hrange]
        simp only [Option.isSome_some, Bool.not_false, Bool.and_self, Bool.not_true, Bool.false_and,
          Bool.false_eq_true, if_false, Option.some.injEq, List.drop_zero, Nat.sub_zero]
        rcases Nat.le_total l numRows with h | h
        · rw [Nat.min_eq_left h]
        · rw [Nat.min_eq_right h, List.take_of_length_le hr, List.take_of_length_le (by omega)]
      | some off =>
        simp only [hrange]
        simp only [Option.isSome_some, Bool.not_false, Bool.and_self, Bool.not_true, Bool.false_and,
          Bool.false_eq_true, if_false, Option.some.injEq]
        exact rangeEnd_take _ _ _ _ hr
  · have hz := hzero hp
    have hscan : (if legacy = true then scanV1 split o frags else scanV2 split o frags (scanRange s numRows)) =
        some (allRows o frags) := by
      cases hl : legacy with
      | true => simpa using e2
      | false =>
        have : scanRange s numRows = none := by
          unfold scanRange
          cases hfil : s.filter with
          | some p => rfl
          | none =>
            simp only
            have : s.limit = none ∧ s.offset = none := by
              cases h1 : s.limit <;> cases h2 : s.offset <;> simp_all [pushed]
            rw [this.1, this.2]
        simp only [this, Bool.false_eq_true, if_false]; exact e1
    have hnode : (!((scanRange s numRows).isSome && !legacy)) = true := by
      cases hl : legacy with
      | true => simp
      | false =>
        have : scanRange s numRows = none := by
          unfold scanRange
          cases hfil : s.filter with
          | some p => rfl
          | none =>
            simp only
            have : s.limit = none ∧ s.offset = none := by
              cases h1 : s.limit <;> cases h2 : s.offset <;> simp_all [pushed]
            rw [this.1, this.2]
        simp [this]
    unfold runScan
    simp only [hscan, hnode]
    have hfilt : filterStage s.filter (allRows o frags) =
        (allRows o frags).filter (fun r => match s.filter with | none => true | some p => p r.data) := by
      cases s.filter with
      | none => exact (List.filter_eq_self.mpr (by simp)).symm
      | some p => rfl
    have key : ∀ rows : List (Row α),
        (if hasLimitNode s true = true then some (limitNode s rows) else some rows) =
        some (match s.limit with
          | none => (match s.offset with | none => rows | some o => rows.drop o)
          | some l => (match s.offset with | none => rows | some o => rows.drop o).take l) := by
      intro rows
      unfold hasLimitNode limitNode
      cases hlim : s.limit with
      | none => cases hoff : s.offset <;> simp
      | some l =>
        cases hoff : s.offset with
        | none =>
          have : l ≠ 0 := by intro h; subst h; exact hz hoff hlim
          simp only [Option.getD_some, Option.isSome_none, Bool.or_false, Bool.true_and, Option.getD_none]
          rw [if_pos (by simp; omega)]
          simp
        | some off => simp
    rw [key, hfilt]
    unfold wanted sortStage
    cases s.order <;> rfl

/-- Non-trivial: two fragments, deletions, an offset into the second fragment. -/
example : runScan (fun l => [l]) false ⟨none, none, some 3, some 2⟩ ⟨false, true, false⟩ [plainFrag, descFrag] 6 =
    some [⟨54, .absent, .val (2 * U32 + 4)⟩, ⟨30, .absent, .val 0⟩, ⟨20, .absent, .val 1⟩] := by decide +kernel

/-- C28 seen from a scan: with stable row ids, `offset(5)` returns the sixth row under the row id of the
first one. -/
theorem C28_offset_scan_violated :
    runScan (fun l => [l]) false ⟨none, none, some 1, some 5⟩ ⟨true, false, false⟩ [stableFrag] 10 =
      some [⟨1005, .val 100, .absent⟩] ∧ rowIdOf stableFrag 5 = 105 ∧ rowIdOf stableFrag 0 = 100 := by
  refine ⟨by decide +kernel, by decide, by decide⟩

end Verif.Read
