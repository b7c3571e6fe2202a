import Verif.Stats.LemmasScan
import Verif.Stats.PropsStats

/-! # C72: a scan that uses statistics returns what the filter selects -/
namespace Verif.Stats

/-- C72.  A scan with a filter, over pages with the statistics their writer collected, returns exactly the rows that are not deleted and
for which the filter is true: with their ids, addresses and columns as asked for, in order. -/
def C72_statement : Prop :=
  ∀ (simp : List (Nat × Guar) → Expr → Option Expr) (evaluate : Expr → List Out → Columnar), SoundSimp simp → Evaluates evaluate →
  ∀ (kind : Nat → Kind) (nullable withStats : Nat → Bool) (proj : List Nat) (withId withAddr : Bool) (pred : Expr)
    (pages : List WrittenPage), (∀ w ∈ pages, w.OK kind nullable) →
    scan simp evaluate nullable proj withId withAddr pred (pages.map (fun w => (w.page, w.stats kind withStats))) =
      some (pages.flatMap (fun w => (selected pred w.page).map (outRow proj withId withAddr w.page)))

/-- C72 if the columns of the filter that have statistics are as C71 needs them.  Missing: the other cases, for which it is false. -/
theorem C72_partial (simp : List (Nat × Guar) → Expr → Option Expr) (evaluate : Expr → List Out → Columnar) (hs : SoundSimp simp)
    (he : Evaluates evaluate) (kind : Nat → Kind) (nullable withStats : Nat → Bool) (proj : List Nat) (withId withAddr : Bool)
    (pred : Expr) (pages : List WrittenPage) (hok : ∀ w ∈ pages, w.OK kind nullable)
    (hc : ∀ w ∈ pages, w.hasStats = true → ∀ f ∈ pred.cols, withStats f = true → Clean (kind f) (w.arrays f)) :
    scan simp evaluate nullable proj withId withAddr pred (pages.map (fun w => (w.page, w.stats kind withStats))) =
      some (pages.flatMap (fun w => (selected pred w.page).map (outRow proj withId withAddr w.page))) := by
  rw [scan_ok hs he, List.flatMap_map]
  intro x hx t ht f hf s hst o ho
  obtain ⟨w, hw, e⟩ := List.mem_map.1 hx
  subst e
  simp only at ht ho ⊢
  unfold WrittenPage.stats at ht
  by_cases hh : w.hasStats = true
  · rw [if_pos hh] at ht
    cases ht
    simp only at hst
    by_cases hw2 : withStats f = true
    · rw [if_pos hw2] at hst
      have hsound := C71_partial (kind f) (nullable f) (w.arrays f) ((hok w hw).types f) ((hok w hw).nulls f) (hc w hw hh f hf hw2)
      obtain ⟨s', h1, h2⟩ := hsound
      rw [hst] at h1
      cases h1
      rw [(hok w hw).cells f] at h2
      have := h2 (w.page.cell o f) (List.mem_map.2 ⟨o, List.mem_range.2 ho, rfl⟩)
      rwa [List.length_map, List.length_range] at this
    · rw [if_neg hw2] at hst
      exact nomatch hst
  · rw [if_neg hh] at ht
    exact nomatch ht

/-- Without statistics the scan is right for every filter and every page. -/
theorem C72_without_statistics (simp : List (Nat × Guar) → Expr → Option Expr) (evaluate : Expr → List Out → Columnar)
    (hs : SoundSimp simp) (he : Evaluates evaluate) (nullable : Nat → Bool) (proj : List Nat) (withId withAddr : Bool)
    (pred : Expr) (pages : List Page) :
    scan simp evaluate nullable proj withId withAddr pred (pages.map (fun p => (p, none))) =
      some (pages.flatMap (fun p => (selected pred p).map (outRow proj withId withAddr p))) := by
  rw [scan_ok hs he, List.flatMap_map]
  intro x hx t ht
  obtain ⟨p, _, e⟩ := List.mem_map.1 hx
  subst e
  exact nomatch ht

/-- The way of the predicate does not matter: a simplified predicate with fewer columns, or none, reads the same rows. -/
theorem C72_batch (evaluate : Expr → List Out → Columnar) (he : Evaluates evaluate) (proj : List Nat) (withId withAddr : Bool)
    (p : Page) (a b : Expr) (h : ∀ o < p.size, a.eval (p.cell o) = some true ↔ b.eval (p.cell o) = some true) :
    readBatch evaluate proj withId withAddr p a = readBatch evaluate proj withId withAddr p b := by
  rw [readBatch_ok he, readBatch_ok he]
  have : selected a p = selected b p := by
    unfold selected
    apply List.filter_congr
    intro o ho
    congr 1
    rw [decide_eq_decide]
    exact h o (List.mem_range.1 ho)
  rw [this]

/-! ## A simplifier and an evaluator that meet the hypotheses -/

/-- The bounds make the comparison true of every value between them. -/
def certain (op : Op) (lo hi : Option Val) (v : Val) : Bool :=
  match op with
  | .lt => match hi with | some h => vcmp h v == some .lt | none => false
  | .le => match hi with | some h => vcmp h v == some .lt || vcmp h v == some .eq | none => false
  | .gt => match lo with | some l => vcmp l v == some .gt | none => false
  | .ge => match lo with | some l => vcmp l v == some .gt || vcmp l v == some .eq | none => false
  | .eq => false
  | .ne => (match hi with | some h => vcmp h v == some .lt | none => false) || (match lo with | some l => vcmp l v == some .gt | none => false)

def Op.neg : Op → Op
  | .lt => .ge | .le => .gt | .gt => .le | .ge => .lt | .eq => .ne | .ne => .eq

def boundsOf (gs : List (Nat × Guar)) (f : Nat) : Option Guar := (gs.find? (fun g => g.1 == f)).map (·.2)

/-- Comparisons and `IS NULL` that the guarantees decide become constants. -/
def simpExpr (gs : List (Nat × Guar)) : Expr → Expr
  | .lit b => .lit b
  | .cmp op f v =>
    match boundsOf gs f with
    | some (.notNull lo hi) =>
      if certain op lo hi v then .lit (some true) else if certain op.neg lo hi v then .lit (some false) else .cmp op f v
    | some .null => .lit none
    | _ => .cmp op f v
  | .isNull f =>
    match boundsOf gs f with
    | some (.notNull _ _) => .lit (some false)
    | some .null => .lit (some true)
    | _ => .isNull f
  | .and a b => .and (simpExpr gs a) (simpExpr gs b)
  | .or a b => .or (simpExpr gs a) (simpExpr gs b)
  | .not a => .not (simpExpr gs a)

def simpSome (gs : List (Nat × Guar)) (e : Expr) : Option Expr := some (simpExpr gs e)

theorem intCmp_iff (a b : Int) : (intCmp a b = .lt ↔ a < b) ∧ (intCmp a b = .gt ↔ b < a) ∧ (intCmp a b = .eq ↔ a = b) := by
  unfold intCmp
  by_cases h : a < b
  · simp [h]; omega
  · by_cases h2 : b < a
    · simp [h, h2]; omega
    · simp [h, h2]; omega

theorem bytesCmp_le : ∀ {a b : List Nat}, LexLe a b → bytesCmp a b ≠ .gt
  | [], [], _ => by simp [bytesCmp]
  | [], _ :: _, _ => by simp [bytesCmp]
  | _ :: _, [], h => h.elim
  | x :: a, y :: b, h => by
    unfold bytesCmp
    rcases h with h | ⟨h, h'⟩
    · rw [if_pos h]; simp
    · subst h
      rw [if_neg (Nat.lt_irrefl x), if_neg (Nat.lt_irrefl x)]
      exact bytesCmp_le h'

theorem bytesCmp_ge : ∀ {a b : List Nat}, LexLe b a → bytesCmp a b ≠ .lt
  | [], [], _ => by simp [bytesCmp]
  | [], _ :: _, h => h.elim
  | _ :: _, [], _ => by simp [bytesCmp]
  | x :: a, y :: b, h => by
    unfold bytesCmp
    rcases h with h | ⟨h, h'⟩
    · rw [if_neg (by omega), if_pos h]; simp
    · subst h
      rw [if_neg (Nat.lt_irrefl _), if_neg (Nat.lt_irrefl _)]
      exact bytesCmp_ge h'

/-- Below a value that is below (or at) the constant. -/
theorem vcmp_below {x h v : Val} (hx : x.Le h) : (vcmp h v = some .lt → vcmp x v = some .lt) ∧
    (vcmp h v = some .eq → vcmp x v = some .lt ∨ vcmp x v = some .eq) := by
  cases x <;> cases h <;> simp only [Val.Le] at hx <;> cases v <;> simp only [vcmp, Option.some.injEq, reduceCtorEq, false_implies,
    and_self]
  · rw [(intCmp_iff _ _).1, (intCmp_iff _ _).1, (intCmp_iff _ _).2.2, (intCmp_iff _ _).2.2]; omega
  · rw [(intCmp_iff _ _).1, (intCmp_iff _ _).1, (intCmp_iff _ _).2.2, (intCmp_iff _ _).2.2]; omega
  · rename_i a b c
    revert hx
    cases a <;> cases b <;> cases c <;> decide
  · rename_i a b c
    have tri : ∀ o : Ordering, o = .lt ∨ o = .eq ∨ o = .gt := by intro o; cases o <;> simp
    constructor
    · intro hlt
      have h1 : LexLe a c := lexLe_trans hx (bytesCmp_gt (by rw [hlt]; simp))
      rcases tri (bytesCmp a c) with h | h | h
      · exact h
      · -- equal: then c ≤ a ≤ b, against b < c
        have h2 : LexLe c a := bytesCmp_lt (by rw [h]; simp)
        exact absurd hlt (bytesCmp_ge (lexLe_trans h2 hx))
      · exact absurd h (bytesCmp_le h1)
    · intro heq
      have h1 : LexLe a c := lexLe_trans hx (bytesCmp_gt (by rw [heq]; simp))
      rcases tri (bytesCmp a c) with h | h | h
      · exact .inl h
      · exact .inr h
      · exact absurd h (bytesCmp_le h1)

theorem vcmp_above {x l v : Val} (hx : l.Le x) : (vcmp l v = some .gt → vcmp x v = some .gt) ∧
    (vcmp l v = some .eq → vcmp x v = some .gt ∨ vcmp x v = some .eq) := by
  cases l <;> cases x <;> simp only [Val.Le] at hx <;> cases v <;> simp only [vcmp, Option.some.injEq, reduceCtorEq, false_implies,
    and_self]
  · rw [(intCmp_iff _ _).2.1, (intCmp_iff _ _).2.1, (intCmp_iff _ _).2.2, (intCmp_iff _ _).2.2]; omega
  · rw [(intCmp_iff _ _).2.1, (intCmp_iff _ _).2.1, (intCmp_iff _ _).2.2, (intCmp_iff _ _).2.2]; omega
  · rename_i b a c
    revert hx
    cases a <;> cases b <;> cases c <;> decide
  · rename_i b a c
    have tri : ∀ o : Ordering, o = .lt ∨ o = .eq ∨ o = .gt := by intro o; cases o <;> simp
    constructor
    · intro hgt
      have h1 : LexLe c a := lexLe_trans (bytesCmp_lt (by rw [hgt]; simp)) hx
      rcases tri (bytesCmp a c) with h | h | h
      · exact absurd h (bytesCmp_ge h1)
      · have h2 : LexLe a c := bytesCmp_gt (by rw [h]; simp)
        exact absurd hgt (bytesCmp_le (lexLe_trans hx h2))
      · exact h
    · intro heq
      have h1 : LexLe c a := lexLe_trans (bytesCmp_lt (by rw [heq]; simp)) hx
      rcases tri (bytesCmp a c) with h | h | h
      · exact absurd h (bytesCmp_ge h1)
      · exact .inr h
      · exact .inl h

theorem certain_ok {op : Op} {lo hi : Option Val} {x v : Val} (hb : Between lo hi x) (hc : certain op lo hi v = true) :
    (vcmp x v).map op.holds = some true := by
  have below : ∀ h, hi = some h → vcmp h v = some .lt → vcmp x v = some .lt := fun h e e2 => (vcmp_below (hb.2 h e)).1 e2
  have above : ∀ l, lo = some l → vcmp l v = some .gt → vcmp x v = some .gt := fun l e e2 => (vcmp_above (hb.1 l e)).1 e2
  cases op <;> simp only [certain] at hc
  · cases hi with
    | none => exact nomatch hc
    | some h => rw [below h rfl (by simpa using hc)]; rfl
  · cases hi with
    | none => exact nomatch hc
    | some h =>
      rw [Bool.or_eq_true] at hc
      rcases hc with hc | hc
      · rw [below h rfl (by simpa using hc)]; rfl
      · rcases (vcmp_below (hb.2 h rfl)).2 (by simpa using hc) with e | e <;> rw [e] <;> rfl
  · cases lo with
    | none => exact nomatch hc
    | some l => rw [above l rfl (by simpa using hc)]; rfl
  · cases lo with
    | none => exact nomatch hc
    | some l =>
      rw [Bool.or_eq_true] at hc
      rcases hc with hc | hc
      · rw [above l rfl (by simpa using hc)]; rfl
      · rcases (vcmp_above (hb.1 l rfl)).2 (by simpa using hc) with e | e <;> rw [e] <;> rfl
  · exact nomatch hc
  · rw [Bool.or_eq_true] at hc
    rcases hc with hc | hc
    · cases hi with
      | none => exact nomatch hc
      | some h => rw [below h rfl (by simpa using hc)]; rfl
    · cases lo with
      | none => exact nomatch hc
      | some l => rw [above l rfl (by simpa using hc)]; rfl

theorem neg_holds (op : Op) (o : Option Ordering) : o.map op.neg.holds = some true → o.map op.holds = some false := by
  cases o with
  | none => simp
  | some o => cases op <;> cases o <;> decide

theorem simpExpr_ok (gs : List (Nat × Guar)) (row : Nat → Option Val) (h : ∀ g ∈ gs, g.2.Holds (row g.1)) (e : Expr) :
    (simpExpr gs e).eval row = e.eval row := by
  have hbounds : ∀ f g, boundsOf gs f = some g → g.Holds (row f) := by
    intro f g hg
    unfold boundsOf at hg
    rw [Option.map_eq_some_iff] at hg
    obtain ⟨x, hx, e⟩ := hg
    subst e
    have h1 := List.mem_of_find?_eq_some hx
    have h2 := List.find?_some hx
    have h2 : x.1 = f := by simpa using h2
    rw [← h2]
    exact h x h1
  induction e with
  | lit b => rfl
  | cmp op f v =>
    unfold simpExpr
    split
    · rename_i lo hi hg
      obtain ⟨x, hx, hb⟩ := hbounds f _ hg
      have hev : (Expr.cmp op f v).eval row = (vcmp x v).map op.holds := by
        show (row f).bind _ = _
        rw [hx, Option.bind_some]
      split
      · rename_i hc
        rw [hev, certain_ok hb hc]
        rfl
      · split
        · rename_i hc
          rw [hev, neg_holds _ _ (certain_ok hb hc)]
          rfl
        · rfl
    · rename_i hg
      have hx : row f = none := hbounds f _ hg
      show none = (row f).bind _
      rw [hx]
      rfl
    · rfl
  | isNull f =>
    unfold simpExpr
    split
    · rename_i lo hi hg
      obtain ⟨x, hx, _⟩ := hbounds f _ hg
      show some false = some (row f).isNone
      rw [hx]
      rfl
    · rename_i hg
      have hx : row f = none := hbounds f _ hg
      show some true = some (row f).isNone
      rw [hx]
      rfl
    · rfl
  | and a b iha ihb => simp only [simpExpr, Expr.eval, iha, ihb]
  | or a b iha ihb => simp only [simpExpr, Expr.eval, iha, ihb]
  | not a iha => simp only [simpExpr, Expr.eval, iha]

/-- The simplifier is sound. -/
theorem simpSome_sound : SoundSimp simpSome := by
  intro gs e e' h row hg
  cases h
  rw [simpExpr_ok gs row hg e]

/-- An evaluator: one value per row, except for constants. -/
def evalAll (e : Expr) (rows : List Out) : Columnar :=
  match e with
  | .lit b => .scalar b
  | e => .array (rows.map (fun r => e.eval r.get))

theorem evalAll_ok : Evaluates evalAll := by
  intro e rows
  unfold evalAll
  split
  · intro r _; rfl
  · rfl

/-! ## Violations -/

/-- A page with one column, from its arrays. -/
def pageOf (arrays : List (List (Option Val))) : WrittenPage :=
  { page := { size := arrays.flatten.length, cell := fun o _ => (arrays.flatten[o]?).getD none, live := fun _ => true, addr := id,
              rowid := id }
    arrays := fun _ => arrays
    hasStats := true }

theorem pageOf_ok {k : Kind} {arrays : List (List (Option Val))} (h : HasKind k arrays) :
    (pageOf arrays).OK (fun _ => k) (fun _ => true) := by
  refine ⟨?_, fun _ => h, fun _ e => nomatch e⟩
  intro f
  apply List.ext_getElem?
  intro i
  show arrays.flatten[i]? = ((List.range arrays.flatten.length).map (fun o => (arrays.flatten[o]?).getD none))[i]?
  rw [List.getElem?_map]
  by_cases hi : i < arrays.flatten.length
  · rw [List.getElem?_range hi, Option.map_some, List.getElem?_eq_getElem hi]
    rfl
  · rw [List.getElem?_eq_none (by omega), List.getElem?_eq_none (by rw [List.length_range]; omega)]
    rfl

/-- `x > 5.0` loses the NaN of the page, which the filter selects. -/
theorem C72_nan_violated :
    (scan simpSome evalAll (fun _ => true) [0] true false (.cmp .gt 0 (.flt 1084227584))
      [((pageOf nanPage).page, (pageOf nanPage).stats (fun _ => .flt 2139095040) (fun _ => true))]) = some [] ∧
    (selected (.cmp .gt 0 (.flt 1084227584)) (pageOf nanPage).page) = [1] := by
  decide +kernel

/-- `IS NULL` loses the null of the page. -/
theorem C72_bool_violated :
    (scan simpSome evalAll (fun _ => true) [0] true false (.isNull 0)
      [((pageOf boolPage).page, (pageOf boolPage).stats (fun _ => .bool) (fun _ => true))]) = some [] ∧
    selected (.isNull 0) (pageOf boolPage).page = [2] := by
  decide +kernel

/-- A filter above the upper bound loses the string that was cut short. -/
theorem C72_utf8_violated :
    (scan simpSome evalAll (fun _ => true) [0] true false (.cmp .gt 0 (.bytes (manyA 62 ++ [0x7A])))
      [((pageOf emojiPage).page, (pageOf emojiPage).stats (fun _ => .utf8) (fun _ => true))]) = some [] ∧
    selected (.cmp .gt 0 (.bytes (manyA 62 ++ [0x7A]))) (pageOf emojiPage).page = [0] := by
  decide +kernel

theorem C72_violated : ¬ C72_statement := by
  intro h
  have := h simpSome evalAll simpSome_sound evalAll_ok (fun _ => .bool) (fun _ => true) (fun _ => true) [0] true false (.isNull 0)
    [pageOf boolPage] (by
      intro w hw
      rw [List.mem_singleton] at hw
      subst hw
      exact pageOf_ok boolPage_kind)
  rw [List.map_cons, List.map_nil, C72_bool_violated.1, List.flatMap_cons, List.flatMap_nil, C72_bool_violated.2] at this
  exact absurd this (by decide)

/-! ## A non-trivial case -/

/-- Three pages of integers: one is left out by its statistics, one is taken whole, one is filtered; a row is deleted. -/
theorem C72_nonvacuous :
    let p1 := pageOf [[some (.int 1), some (.int 2)]]
    let p2 := pageOf [[some (.int 7)], [some (.int 9)]]
    let p3 : WrittenPage := { pageOf [[some (.int 3), none, some (.int 8)]] with
      page := { (pageOf [[some (.int 3), none, some (.int 8)]]).page with live := fun o => o != 2 } }
    let pred : Expr := .cmp .gt 0 (.int 2)
    (∀ w ∈ [p1, p2, p3], w.OK (fun _ => .int (-128) 127) (fun _ => true)) ∧
    (∀ w ∈ [p1, p2, p3], w.hasStats = true → ∀ f ∈ pred.cols, true = true → Clean (.int (-128) 127) (w.arrays f)) ∧
    simplified simpSome (fun _ => true) pred p1.page (p1.stats (fun _ => .int (-128) 127) (fun _ => true)) = .lit (some false) ∧
    simplified simpSome (fun _ => true) pred p2.page (p2.stats (fun _ => .int (-128) 127) (fun _ => true)) = .lit (some true) ∧
    simplified simpSome (fun _ => true) pred p3.page (p3.stats (fun _ => .int (-128) 127) (fun _ => true)) = pred ∧
    (scan simpSome evalAll (fun _ => true) [0] true false pred
      ([p1, p2, p3].map (fun w => (w.page, w.stats (fun _ => .int (-128) 127) (fun _ => true))))) =
      some [⟨some (some 0), none, [(0, some (.int 7))]⟩, ⟨some (some 1), none, [(0, some (.int 9))]⟩,
            ⟨some (some 0), none, [(0, some (.int 3))]⟩] := by
  have k : ∀ a : List (List (Option Val)), (∀ x ∈ a.flatten, ∀ v, x = some v → ∃ i, v = .int i ∧ -128 ≤ i ∧ i ≤ 127) →
      HasKind (.int (-128) 127) a := by
    intro a h b hb v hv
    exact h _ (List.mem_flatten.2 ⟨b, hb, hv⟩) v rfl
  have k1 : HasKind (.int (-128) 127) [[some (.int 1), some (.int 2)]] := by
    apply k; intro x hx v hv; subst hv; simp at hx
    rcases hx with e | e <;> subst e <;> exact ⟨_, rfl, by decide, by decide⟩
  have k2 : HasKind (.int (-128) 127) [[some (.int 7)], [some (.int 9)]] := by
    apply k; intro x hx v hv; subst hv; simp at hx
    rcases hx with e | e <;> subst e <;> exact ⟨_, rfl, by decide, by decide⟩
  have k3 : HasKind (.int (-128) 127) [[some (.int 3), none, some (.int 8)]] := by
    apply k; intro x hx v hv; subst hv; simp at hx
    rcases hx with e | e <;> subst e <;> exact ⟨_, rfl, by decide, by decide⟩
  refine ⟨?_, fun _ _ _ _ _ _ => trivial, by decide +kernel, by decide +kernel, by decide +kernel, by decide +kernel⟩
  intro w hw
  simp only [List.mem_cons, List.not_mem_nil, or_false] at hw
  rcases hw with e | e | e <;> subst e
  · exact pageOf_ok k1
  · exact pageOf_ok k2
  · have := pageOf_ok k3
    exact ⟨this.cells, this.types, this.nulls⟩

end Verif.Stats
