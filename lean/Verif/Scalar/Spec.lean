import Verif.Scalar.LemmasPages
import Verif.Scalar.LemmasBitmap

/-! What a search of a scalar index has to return, stated without the indices. -/
namespace Verif.Scalar
open Verif
open Verif.RowSet (TreeMap)

variable {V : Type} [LinOrd V]

/-- `x` is not below the lower end. -/
def Above (x : V) : Bd V → Prop
  | .incl l => LinOrd.le l x = true
  | .excl l => LinOrd.le l x = true ∧ l ≠ x
  | .unb => True

/-- `x` is not above the upper end. -/
def Below (x : V) : Bd V → Prop
  | .incl u => LinOrd.le x u = true
  | .excl u => LinOrd.le x u = true ∧ x ≠ u
  | .unb => True

/-- The value `v` (`none`: NULL) satisfies the query.  `Equals(NULL)` and a NULL in `IsIn` mean "is NULL": this is
what the comments in the code say (flat.rs:206-214, 221). -/
def Sat : Query V → Option V → Prop
  | .equals w, v => v = w
  | .isIn ws, v => v ∈ ws
  | .isNull, v => v = none
  | .range lo hi, v => ∃ x, v = some x ∧ Above x lo ∧ Below x hi

/-- The set `m` is exactly the set of the rows that satisfy the query. -/
def Exact (rows : List (Row V)) (q : Query V) (m : TreeMap) : Prop :=
  ∀ i, i < 2 ^ 64 → (RowSet.contains m i = true ↔ ∃ v, (v, i) ∈ rows ∧ Sat q v)

/-- No list of the query has a NULL. -/
def NullFree : Query V → Prop
  | .isIn ws => none ∉ ws
  | _ => True

/-- The lower end of the range lies above the upper end, e.g. `x BETWEEN 5 AND 3`. -/
def Crossed : Query V → Prop
  | .range (.incl a) (.incl b) => LinOrd.le a b = false
  | .range (.incl a) (.excl b) => LinOrd.le a b = false
  | .range (.excl a) (.incl b) => LinOrd.le a b = false
  | .range (.excl a) (.excl b) => LinOrd.le a b = false
  | _ => False

/-- Both ends are excluded and equal: `x > 5 AND x < 5`. -/
def Pinched : Query V → Prop
  | .range (.excl a) (.excl b) => a = b
  | _ => False

/-- Row id `i` is `j` after a compaction with this address map. -/
def Moved (f : Mapping) (i j : Nat) : Prop := f i = some (some j) ∨ (f i = none ∧ j = i)

/-- Row ids are 64 bit numbers. -/
def Ids64 (rows : List (Row V)) : Prop := ∀ r ∈ rows, r.2 < 2 ^ 64

/-- The rows come in value order, NULL first. -/
def InOrder (rows : List (Row V)) : Prop := rows.Pairwise (fun a b => LinOrd.le a.1 b.1 = true)

/-! ### Connection with the kernels -/

variable [DecidableEq V]

omit [DecidableEq V] in
theorem lt_iff_le_ne (a b : V) : lt a b = true ↔ LinOrd.le a b = true ∧ a ≠ b := by
  constructor
  · intro h; exact ⟨le_of_lt h, ne_of_lt h⟩
  · rintro ⟨h1, h2⟩; exact lt_of_le_ne h1 h2

omit [DecidableEq V] in
theorem aboveLo_iff (lo : Bd V) (x : V) : aboveLo lo x = true ↔ Above x lo := by
  cases lo with
  | incl l => exact Iff.rfl
  | excl l => exact lt_iff_le_ne l x
  | unb => simp [aboveLo, Above]

omit [DecidableEq V] in
theorem belowHi_iff (hi : Bd V) (x : V) : belowHi hi x = true ↔ Below x hi := by
  cases hi with
  | incl l => exact Iff.rfl
  | excl l => exact lt_iff_le_ne x l
  | unb => simp [belowHi, Below]

theorem flatKeep_iff (q : Query V) (hq : NullFree q) (v : Option V) : flatKeep q v = true ↔ Sat q v := by
  cases q with
  | equals w => simp [flatKeep, Sat]
  | isNull => simp [flatKeep, Sat]
  | isIn ws =>
    cases v with
    | none => simp only [flatKeep, Sat, Bool.false_eq_true, false_iff]; exact hq
    | some x => simp [flatKeep, Sat]
  | range lo hi =>
    cases v with
    | none => simp [flatKeep, Sat]
    | some x => simp [flatKeep, Sat, aboveLo_iff, belowHi_iff]

theorem sat_none_isIn (q : Query V) (v : Option V) (hv : v ≠ none) : flatKeep q v = true ↔ Sat q v := by
  cases v with
  | none => exact absurd rfl hv
  | some x =>
    cases q with
    | equals w => simp [flatKeep, Sat]
    | isNull => simp [flatKeep, Sat]
    | isIn ws => simp [flatKeep, Sat]
    | range lo hi => simp [flatKeep, Sat, aboveLo_iff, belowHi_iff]

omit [DecidableEq V] in
theorem not_inverted (lo hi : Bd V) (h : ¬ Crossed (.range lo hi)) : ¬ Inverted lo hi := by
  intro hi'
  apply h
  cases lo <;> cases hi <;> simp_all [Inverted, Crossed, lt]

theorem rangePanics_iff (lo hi : Bd V) :
    rangePanics lo hi = true ↔ Crossed (.range lo hi) ∨ Pinched (.range lo hi) := by
  cases lo <;> cases hi <;> simp [rangePanics, Crossed, Pinched, lt]

/-- A bitmap that holds `rows` answers every query exactly, or panics. -/
theorem bitmap_exact {b : Bitmap V} {rows : List (Row V)} (h : BExact b rows) (q : Query V)
    (hq : ¬ Crossed q ∧ ¬ Pinched q) : ∃ m, bitmapSearch b q = some m ∧ Exact rows q m := by
  cases q with
  | equals w =>
    cases w with
    | none =>
      refine ⟨_, rfl, ?_⟩
      intro i hi
      rw [h.nulls i hi]
      simp [Sat]
    | some x =>
      refine ⟨_, rfl, ?_⟩
      intro i hi
      rw [h.exact x i hi]
      simp [Sat]
  | isNull =>
    refine ⟨_, rfl, ?_⟩
    intro i hi
    rw [h.nulls i hi]
    simp [Sat]
  | isIn ws =>
    refine ⟨_, rfl, ?_⟩
    intro i hi
    rw [contains_bitmapIn h ws [] i hi]
    simp only [contains_nil, Bool.false_eq_true, false_or, Sat]
    constructor
    · rintro ⟨w, h1, h2⟩; exact ⟨w, h2, h1⟩
    · rintro ⟨w, h1, h2⟩; exact ⟨w, h2, h1⟩
  | range lo hi =>
    have hp : ¬ rangePanics lo hi = true := by
      rw [rangePanics_iff]
      rintro (h1 | h1)
      · exact hq.1 h1
      · exact hq.2 h1
    refine ⟨_, if_neg hp, ?_⟩
    intro i hi'
    rw [contains_range h (fun x => aboveLo lo x && belowHi hi x) i hi']
    simp only [Sat, Bool.and_eq_true, aboveLo_iff, belowHi_iff]
    constructor
    · rintro ⟨x, h1, h2⟩; exact ⟨_, h1, x, rfl, h2⟩
    · rintro ⟨_, h1, x, rfl, h2⟩; exact ⟨x, h1, h2⟩

theorem bitmap_panics (b : Bitmap V) (q : Query V) : bitmapSearch b q = none ↔ Crossed q ∨ Pinched q := by
  cases q with
  | equals w => cases w <;> simp [bitmapSearch, Crossed, Pinched]
  | isNull => simp [bitmapSearch, Crossed, Pinched]
  | isIn ws => simp [bitmapSearch, Crossed, Pinched]
  | range lo hi =>
    rw [← rangePanics_iff]
    simp only [bitmapSearch]
    by_cases h : rangePanics lo hi = true
    · simp [h]
    · rw [if_neg h]; simp [h]

/-- A btree that covers `rows` answers every query exactly except for the listed ones. -/
theorem btree_exact {b : BTree V} {rows : List (Row V)} (hc : Covers b rows) (hr : Ids64 rows) (q : Query V)
    (hn : NullFree q ∨ ∀ r ∈ rows, r.1 ≠ none) (h1 : q ≠ .range .unb .unb) (h2 : ¬ Crossed q) :
    ∃ m, searchBTree b q = some m ∧ Exact rows q m := by
  obtain ⟨m, hm⟩ := search_some b q h1 (fun lo hi he => not_inverted lo hi (he ▸ h2))
  refine ⟨m, hm, ?_⟩
  intro i hi
  rw [search_covers hc hr hm i hi]
  constructor
  · rintro ⟨v, hv, hk⟩
    refine ⟨v, hv, ?_⟩
    rcases hn with hn | hn
    · exact (flatKeep_iff q hn v).1 hk
    · exact (sat_none_isIn q v (hn _ hv)).1 hk
  · rintro ⟨v, hv, hk⟩
    refine ⟨v, hv, ?_⟩
    rcases hn with hn | hn
    · exact (flatKeep_iff q hn v).2 hk
    · exact (sat_none_isIn q v (hn _ hv)).2 hk

end Verif.Scalar
