import Verif.Join.Lemmas

/-!
# C58: columns added to a fragment line up with its rows

The updater sees only the rows that are not deleted; the new data file must have one row for every physical row of
the fragment, with the value computed for a row at the row's own offset.
-/
namespace Verif.Join
open Verif Verif.Read Verif.Deletion

/-- The new column file is right: one row for every physical row, and every row that is not deleted has the value
computed from it. -/
def Aligned {α β : Type} (f : Frag α) (o : Opts) (g : Row α → β) (out : List β) : Prop :=
  out.length = f.rows ∧ ∀ off, off < f.rows → live f.dv off = true → out[off]? = some (g (rowAt f o off))

/-- C58, full statement: adding a column computed row by row succeeds and lines up. -/
def C58_statement : Prop :=
  ∀ (α β : Type) (split : List α → List (List α)) (f : Frag α) (o : Opts) (g : Row α → β),
    Splits split → f.OK → o.nulls = false → 0 < f.rows →
    ∃ out, runUpdater split none o f (fun b => .ok (b.map g)) = .ok out ∧ Aligned f o g out

/-- Batches of two rows. -/
def pairs {α : Type} : List α → List (List α)
  | [] => []
  | [a] => [[a]]
  | a :: b :: l => [a, b] :: pairs l

theorem pairs_splits {α : Type} : Splits (pairs (α := α)) := by
  intro l
  induction l using pairs.induct with
  | case1 => rfl
  | case2 a => rfl
  | case3 a b l ih => simp [pairs, ih]

/-- Five rows; rows 0 and 1 (the first batch of two) are deleted. -/
def headGone : Frag Nat := { id := 1, rows := 5, dv := some (.set [1, 0]), seq := none, file := fun o => 10 * o }

theorem headGone_ok : headGone.OK where
  rows := by decide
  dv := by
    intro d h
    cases h
    refine ⟨by simp [DV.WF], ?_⟩
    intro o ho
    simp only [DV.contains, List.contains_eq_mem, decide_eq_true_eq, List.mem_cons, List.not_mem_nil, or_false] at ho
    show o < 5
    omega
  seq := by intro q h; cases h

/-- It fails: the update is refused when all rows of the first batch are deleted. -/
theorem C58_violated : ¬ C58_statement := by
  intro h
  obtain ⟨out, h1, _⟩ := h Nat Nat pairs headGone ⟨false, false, false⟩ (fun r => r.data) pairs_splits headGone_ok rfl
    (by decide)
  revert h1
  rw [show runUpdater pairs none ⟨false, false, false⟩ headGone (fun b => .ok (b.map (fun r => r.data))) =
    .error .tooManyMissing from rfl]
  intro h1
  cases h1

/-- The computation may fail, but when it succeeds it works row by row. -/
def RowWise {α β : Type} (compute : List (Row α) → Except Err (List β)) (g : Row α → β) : Prop :=
  ∀ b v, compute b = .ok v → v = b.map g

/-- C58, safety in all cases: whatever the batches, the file version and the deletions, an update that succeeds
lines up.  No value lands in another row and no row is missing. -/
theorem C58_aligned_partial {α β : Type} (split : List α → List (List α)) (legacy : Option Nat) (f : Frag α)
    (o : Opts) (compute : List (Row α) → Except Err (List β)) (g : Row α → β) (hsp : Splits split) (hf : f.OK)
    (hn : o.nulls = false) (hg : RowWise compute g) (out : List β)
    (h : runUpdater split legacy o f compute = .ok out) : Aligned f o g out := by
  obtain ⟨bs, h1, h2, _⟩ := readAll_batches split hsp f hf o hn
  unfold runUpdater at h
  rw [h1] at h
  simp only at h
  obtain ⟨h3, h4⟩ := updateLoop_sound (deletedOf f.dv) (deletedOf_sorted f hf) compute g hg bs _
    (At.new (deletedOf f.dv) legacy) out h
  have hc : (Restorer.new (deletedOf f.dv) legacy).current = 0 := rfl
  rw [hc] at h3 h4
  rw [h2, List.map_map] at h3
  have h5 := kept_rows (deletedOf f.dv) (deletedOf_sorted f hf) f.rows (fun off => g (rowAt f o off)) out
    (deletedOf_lt f hf) (by intro d hd; have := h4 d hd; omega) (by
      rw [h3]
      congr 1
      apply List.filter_congr
      intro x _
      exact live_eq f.dv x)
  refine ⟨h5.1, ?_⟩
  intro off ho hl
  rw [live_eq] at hl
  exact h5.2 off ho (by simpa using hl)

/-- The computation succeeds on the rows of the fragment. -/
def Computes {α β : Type} (f : Frag α) (o : Opts) (compute : List (Row α) → Except Err (List β)) (g : Row α → β) :
    Prop :=
  ∀ b : List (Row α), (∀ x ∈ b, ∃ off, off < f.rows ∧ live f.dv off = true ∧ x = rowAt f o off) →
    compute b = .ok (b.map g)

theorem computes_batches {α β : Type} {f : Frag α} {o : Opts} {compute : List (Row α) → Except Err (List β)}
    {g : Row α → β} (hc : Computes f o compute g) (bs : List (List (Row α)))
    (h : bs.flatten = ((List.range f.rows).filter (live f.dv)).map (rowAt f o)) :
    ∀ b ∈ bs, compute b = .ok (b.map g) := by
  intro b hb
  apply hc
  intro x hx
  have : x ∈ bs.flatten := List.mem_flatten.mpr ⟨b, hb, hx⟩
  rw [h] at this
  obtain ⟨off, h1, h2⟩ := List.mem_map.mp this
  rw [List.mem_filter, List.mem_range] at h1
  exact ⟨off, h1.1, h1.2, h2.symm⟩

/-- A run does not depend on what the computation does elsewhere. -/
theorem updateLoop_congr {α β : Type} (c1 c2 : List α → Except Err (List β)) (bs : List (List α)) (r : Restorer)
    (h : ∀ b ∈ bs, c1 b = c2 b) : updateLoop c1 r bs = updateLoop c2 r bs := by
  induction bs generalizing r with
  | nil => rfl
  | cons b bs ih =>
    unfold updateLoop
    rw [h b List.mem_cons_self]
    have : ∀ r', updateLoop c1 r' bs = updateLoop c2 r' bs :=
      fun r' => ih r' (fun x hx => h x (List.mem_cons_of_mem _ hx))
    simp only [this]

theorem runUpdater_congr {α β : Type} {split : List α → List (List α)} {legacy : Option Nat} {f : Frag α} {o : Opts}
    {compute : List (Row α) → Except Err (List β)} {g : Row α → β} (hsp : Splits split) (hf : f.OK)
    (hn : o.nulls = false) (hc : Computes f o compute g) :
    runUpdater split legacy o f compute = runUpdater split legacy o f (fun b => .ok (b.map g)) := by
  obtain ⟨bs, h1, h2, _⟩ := readAll_batches split hsp f hf o hn
  unfold runUpdater
  rw [h1]
  exact updateLoop_congr _ _ bs _ (computes_batches hc bs h2)

theorem aligned_of_computes {α β : Type} (split : List α → List (List α)) (legacy : Option Nat) (f : Frag α)
    (o : Opts) (compute : List (Row α) → Except Err (List β)) (g : Row α → β) (hsp : Splits split) (hf : f.OK)
    (hn : o.nulls = false) (hc : Computes f o compute g) (out : List β)
    (h : runUpdater split legacy o f compute = .ok out) : Aligned f o g out := by
  rw [runUpdater_congr hsp hf hn hc] at h
  exact C58_aligned_partial split legacy f o _ g hsp hf hn (by intro b v h; cases h; rfl) out h

/-- C58 for v2 files: the update succeeds, and lines up, if and only if the first batch has a row that is not
deleted.  Missing from the full statement: fragments whose first batch is deleted entirely (an error). -/
theorem C58_v2_partial {α β : Type} (split : List α → List (List α)) (f : Frag α) (o : Opts)
    (compute : List (Row α) → Except Err (List β)) (g : Row α → β) (hsp : Splits split) (hf : f.OK)
    (hn : o.nulls = false) (hc : Computes f o compute g) (s : Nat) (ss : List Nat)
    (hs : batchSizes split f = s :: ss) (hs0 : 0 < s) :
    ((∃ off, off < s ∧ live f.dv off = true) →
      ∃ out, runUpdater split none o f compute = .ok out ∧ Aligned f o g out) ∧
    ((∀ off, off < s → live f.dv off = false) → runUpdater split none o f compute = .error .tooManyMissing) := by
  obtain ⟨bs, h1, h2, h3⟩ := readAll_batches split hsp f hf o hn
  have hcb := computes_batches hc bs h2
  have hrun : ∀ e, runUpdater split none o f compute = e ↔
      updateLoop compute (Restorer.new (deletedOf f.dv) none) bs = e := by
    intro e
    unfold runUpdater
    rw [h1]
  rw [hs] at h3
  cases bs with
  | nil => simp [liveLens] at h3
  | cons b bs =>
    simp only [List.map_cons, liveLens, List.cons.injEq] at h3
    constructor
    · rintro ⟨off, ho, hlv⟩
      have hpos : 0 < nd (deletedOf f.dv) 0 s := (nd_pos f 0 s).mpr ⟨off, by omega, by omega, hlv⟩
      obtain ⟨out, hout⟩ := updateLoop_v2 (deletedOf f.dv) (deletedOf_sorted f hf) f.rows (deletedOf_lt f hf) compute
        (b :: bs) (by intro x hx; exact ⟨_, hcb x hx, by simp⟩) (Restorer.new (deletedOf f.dv) none)
        (At.new _ _) rfl (Nat.zero_le _) (by
          rw [h2, List.length_map]
          show _ = nd (deletedOf f.dv) 0 (f.rows - 0)
          unfold nd
          rw [Nat.sub_zero, ← List.range_eq_range']
          congr 1
          apply List.filter_congr
          intro x _
          exact live_eq f.dv x) (Or.inr ⟨b, bs, rfl, by
            intro hb; rw [hb] at h3; simp at h3; omega⟩) (by intro h; cases h)
      refine ⟨out, (hrun _).mpr hout, ?_⟩
      exact aligned_of_computes split none f o compute g hsp hf hn hc out ((hrun _).mpr hout)
    · intro hdead
      have h0 : nd (deletedOf f.dv) 0 s = 0 := by
        apply Classical.byContradiction
        intro hne
        obtain ⟨off, _, h5, h6⟩ := (nd_pos f 0 s).mp (by omega)
        rw [hdead off (by omega)] at h6
        cases h6
      have hb : b = [] := List.length_eq_zero_iff.mp (by omega)
      subst hb
      rw [hrun]
      apply updateLoop_empty (deletedOf f.dv) (deletedOf_sorted f hf) compute (hcb [] List.mem_cons_self) bs _
        (At.new _ _) rfl
      have := hdead 0 hs0
      rw [live_eq] at this
      show 0 ∈ deletedOf f.dv
      simpa using this

/-- Every row group has a row that is not deleted. -/
def GroupsLive (dv : Option DV) : Nat → List Nat → Prop
  | _, [] => True
  | c, s :: ss => (∃ off, c ≤ off ∧ off < c + s ∧ live dv off = true) ∧ GroupsLive dv (c + s) ss

theorem groupsLive_iff {α β : Type} (f : Frag α) (c : Nat) (sizes : List Nat) (bs : List (List β))
    (h : bs.map List.length = liveLens (deletedOf f.dv) c sizes) :
    GroupsLive f.dv c sizes ↔ ∀ b ∈ bs, b ≠ [] := by
  induction sizes generalizing c bs with
  | nil =>
    cases bs with
    | nil => simp [GroupsLive]
    | cons b bs => simp [liveLens] at h
  | cons s ss ih =>
    cases bs with
    | nil => simp [liveLens] at h
    | cons b bs =>
      simp only [List.map_cons, liveLens, List.cons.injEq] at h
      simp only [GroupsLive, ← nd_pos, ih (c + s) bs h.2, List.mem_cons, forall_eq_or_imp, ← h.1]
      rw [List.length_pos_iff]

/-- C58 for v1 files, whose batches are the row groups: the update succeeds, and lines up, if and only if every row
group has a row that is not deleted. -/
theorem C58_v1_partial {α β : Type} (split : List α → List (List α)) (f : Frag α) (o : Opts)
    (compute : List (Row α) → Except Err (List β)) (g : Row α → β) (hsp : Splits split) (hf : f.OK)
    (hn : o.nulls = false) (hc : Computes f o compute g) (l : Nat) (hl : 0 < l)
    (hrg : RowGroups l (batchSizes split f)) (hrows : 0 < f.rows) :
    (GroupsLive f.dv 0 (batchSizes split f) →
      ∃ out, runUpdater split (some l) o f compute = .ok out ∧ Aligned f o g out) ∧
    (¬ GroupsLive f.dv 0 (batchSizes split f) → runUpdater split (some l) o f compute = .error .tooManyMissing) := by
  obtain ⟨bs, h1, h2, h3⟩ := readAll_batches split hsp f hf o hn
  have hcb := computes_batches hc bs h2
  have hrun : ∀ e, runUpdater split (some l) o f compute = e ↔
      updateLoop compute (Restorer.new (deletedOf f.dv) (some l)) bs = e := by
    intro e
    unfold runUpdater
    rw [h1]
  have hsum := batchSizes_sum split hsp f
  have hv1 := updateLoop_v1 (deletedOf f.dv) (deletedOf_sorted f hf) f.rows l hl (deletedOf_lt f hf) compute
    (batchSizes split f) bs (by intro x hx; exact ⟨_, hcb x hx, by simp⟩) (Restorer.new (deletedOf f.dv) (some l))
    (At.new _ _) rfl (by show 0 + _ = _; omega) hrg h3 (by
      intro hb
      rw [hb] at h3
      cases hz : batchSizes split f with
      | nil => rw [hz] at hsum; simp at hsum; omega
      | cons a as => rw [hz] at h3; simp [liveLens] at h3)
  rw [groupsLive_iff f 0 _ bs h3]
  constructor
  · intro hg
    obtain ⟨out, hout⟩ := hv1.1 hg
    refine ⟨out, (hrun _).mpr hout, ?_⟩
    exact aligned_of_computes split (some l) f o compute g hsp hf hn hc out ((hrun _).mpr hout)
  · intro hg
    rw [hrun]
    apply hv1.2
    apply Classical.byContradiction
    intro hm
    exact hg (fun b hb e => hm (e ▸ hb))

/-! ## Concrete cases -/

/-- Seven rows; rows 1, 2, 3 and 6 are deleted: with batches of two the second batch is deleted entirely. -/
def holes : Frag Nat := { id := 4, rows := 7, dv := some (.bitmap [1, 2, 3, 6]), seq := none, file := fun o => 10 * o }

theorem holes_ok : holes.OK where
  rows := by decide
  dv := by
    intro d h
    cases h
    refine ⟨by show List.Pairwise _ _; decide, ?_⟩
    intro o ho
    simp [DV.contains, Bm.has] at ho
    show o < 7
    omega
  seq := by intro q h; cases h

/-- Adding a column to it: the deleted rows are filled with the first value of their batch. -/
example : (match runUpdater pairs none ⟨false, false, false⟩ holes (fun b => .ok (b.map (fun r => r.data + 1))) with
    | .ok out => out
    | .error _ => []) = [1, 1, 1, 1, 41, 51, 41] := by decide

example : batchSizes pairs holes = [2, 2, 2, 1] ∧ (∃ off, off < 2 ∧ live holes.dv off = true) :=
  ⟨by decide, 0, by decide, by decide⟩

/-- As a v1 file with row groups of two rows it is refused. -/
example : runUpdater pairs (some 2) ⟨false, false, false⟩ holes (fun b => .ok (b.map (fun r => r.data + 1))) =
    .error .tooManyMissing := rfl

example : Computes holes ⟨false, false, false⟩ (fun b => .ok (b.map (fun r => r.data + 1))) (fun r => r.data + 1) :=
  fun _ _ => rfl

/-- Six rows in row groups of three; rows 2, 3 and 5 are deleted. -/
def groups3 : Frag Nat := { id := 4, rows := 6, dv := some (.bitmap [2, 3, 5]), seq := none, file := fun o => 10 * o }

def triples {α : Type} : List α → List (List α)
  | a :: b :: c :: l => [a, b, c] :: triples l
  | [] => []
  | l => [l]

example : (match runUpdater triples (some 3) ⟨false, false, false⟩ groups3 (fun b => .ok (b.map (fun r => r.data + 1))) with
    | .ok out => out
    | .error _ => []) = [1, 11, 1, 41, 41, 41] := by decide

example : RowGroups 3 (batchSizes triples groups3) := by
  show RowGroups 3 [3, 3]
  exact ⟨rfl, by decide, by decide⟩

example : GroupsLive groups3.dv 0 [3, 3] :=
  ⟨⟨0, by decide, by decide, by decide⟩, ⟨4, by decide, by decide, by decide⟩, trivial⟩

end Verif.Join
