import Verif.RepDef.LemmasRows
/-!
# Lemmas on levels: writing one layer of lists
-/
namespace Verif.RepDef
open Verif.Mini (Layer RepDefs)

/-! ### What the loops make of rows -/

/-- The offsets of rows, without the first. -/
def sums {A : Type} : List (Option (List A)) → Nat → List Nat
  | [], _ => []
  | r :: rs, k => (k + (rowVals r).length) :: sums rs (k + (rowVals r).length)

/-- The null and empty lists among rows. -/
def specialsOf {A : Type} : List (Option (List A)) → Nat → List Special
  | [], _ => []
  | none :: rs, i => .nullList i :: specialsOf rs (i + 1)
  | some [] :: rs, i => .emptyList i :: specialsOf rs (i + 1)
  | some (_ :: _) :: rs, i => specialsOf rs (i + 1)

def isEmptyRow {A : Type} : Option (List A) → Bool
  | some [] => true
  | _ => false

/-- Repetition levels without those of null and empty lists. -/
def repIn {A : Type} : List (Option (List A)) → List Nat
  | [] => []
  | some (_ :: xs) :: rs => 1 :: (List.replicate xs.length 0 ++ repIn rs)
  | _ :: rs => repIn rs

/-- Repetition levels. -/
def repOut {A : Type} : List (Option (List A)) → List Nat
  | [] => []
  | some (_ :: xs) :: rs => 1 :: (List.replicate xs.length 0 ++ repOut rs)
  | _ :: rs => 1 :: repOut rs

/-- Definition levels. -/
def defOut (nl el : Nat) : List (Option (List Nat)) → List Nat
  | [] => []
  | none :: rs => nl :: defOut nl el rs
  | some [] :: rs => el :: defOut nl el rs
  | some (x :: xs) :: rs => x :: (xs ++ defOut nl el rs)

/-- Where rows start, without and with the null and empty lists. -/
def startsOf {A : Type} : List (Option (List A)) → Nat → Nat → List (Nat × Nat)
  | [], _, _ => []
  | some (x :: xs) :: rs, k, seen => (k, k + seen) :: startsOf rs (k + (x :: xs).length) seen
  | _ :: rs, k, seen => (k, k + seen) :: startsOf rs k (seen + 1)

/-- The records of null and empty lists, `i` levels after the start. -/
def recordsOf {A : Type} (nl el : Nat) : List (Option (List A)) → Nat → List Record
  | [], _ => []
  | none :: rs, i => ⟨i, nl, 1⟩ :: recordsOf nl el rs (i + 1)
  | some [] :: rs, i => ⟨i, el, 1⟩ :: recordsOf nl el rs (i + 1)
  | some (_ :: xs) :: rs, i => recordsOf nl el rs (i + (xs.length + 1))

theorem repIn_length {A : Type} : ∀ rows : List (Option (List A)), (repIn rows).length = (flat rows).length
  | [] => rfl
  | none :: rs => by simpa [repIn, flat, rowVals] using repIn_length rs
  | some [] :: rs => by simpa [repIn, flat, rowVals] using repIn_length rs
  | some (x :: xs) :: rs => by
    have := repIn_length rs
    simp only [flat] at this
    simp [repIn, flat, rowVals, this]

theorem specialsOf_append {A : Type} : ∀ (rs ss : List (Option (List A))) (i : Nat),
    specialsOf (rs ++ ss) i = specialsOf rs i ++ specialsOf ss (i + rs.length)
  | [], ss, i => by simp [specialsOf]
  | none :: rs, ss, i => by
    simp [specialsOf, specialsOf_append rs ss (i + 1), Nat.add_assoc, Nat.add_comm 1]
  | some [] :: rs, ss, i => by
    simp [specialsOf, specialsOf_append rs ss (i + 1), Nat.add_assoc, Nat.add_comm 1]
  | some (x :: xs) :: rs, ss, i => by
    simp [specialsOf, specialsOf_append rs ss (i + 1), Nat.add_assoc, Nat.add_comm 1]

theorem specialsOf_shift {A : Type} (k : Nat) : ∀ (rs : List (Option (List A))) (i : Nat),
    (specialsOf rs i).map (Special.shift k) = specialsOf rs (i + k)
  | [], i => rfl
  | none :: rs, i => by simp [specialsOf, Special.shift, specialsOf_shift k rs (i + 1), Nat.add_right_comm]
  | some [] :: rs, i => by simp [specialsOf, Special.shift, specialsOf_shift k rs (i + 1), Nat.add_right_comm]
  | some (x :: xs) :: rs, i => by simp [specialsOf, specialsOf_shift k rs (i + 1), Nat.add_right_comm]

theorem sums_append {A : Type} : ∀ (rs ss : List (Option (List A))) (k : Nat),
    sums (rs ++ ss) k = sums rs k ++ sums ss (k + (flat rs).length)
  | [], ss, k => by simp [sums, flat]
  | r :: rs, ss, k => by
    simp [sums, sums_append rs ss, flat, Nat.add_assoc]

theorem sums_shift {A : Type} (j : Nat) : ∀ (rs : List (Option (List A))) (k : Nat), (sums rs k).map (· + j) = sums rs (k + j)
  | [], k => rfl
  | r :: rs, k => by
    simp only [sums, List.map_cons, sums_shift j rs]
    rw [show k + (rowVals r).length + j = k + j + (rowVals r).length by omega]

theorem sums_length {A : Type} : ∀ (rs : List (Option (List A))) (k : Nat), (sums rs k).length = rs.length
  | [], k => rfl
  | r :: rs, k => by simp [sums, sums_length rs]

theorem sums_last {A : Type} : ∀ (rs : List (Option (List A))) (k : Nat), (k :: sums rs k).getLastD 0 = k + (flat rs).length
  | [], k => by simp [sums, flat]
  | r :: rs, k => by
    have := sums_last rs (k + (rowVals r).length)
    simp only [sums]
    rw [List.getLastD_cons, List.getLastD_cons] at *
    rw [this]
    simp [flat, Nat.add_assoc]

/-- `add_offsets` of an array. -/
theorem normWith_rows {A : Type} (l : List A) : ∀ (rest : List Nat) (a : Nat) (bs : List Bool) (i k : Nat), bs.length = rest.length →
    Rising (a :: rest) → (a :: rest).getLastD 0 ≤ l.length →
    (normWith (a :: rest) bs i k).offsets = sums (rowsWith l (a :: rest) bs) k ∧
    (normWith (a :: rest) bs i k).specials = specialsOf (rowsWith l (a :: rest) bs) i ∧
    (normWith (a :: rest) bs i k).hasEmpty = (rowsWith l (a :: rest) bs).any isEmptyRow
  | [], a, bs, i, k, _, _, _ => by simp [normWith, rowsWith, sums, specialsOf]
  | b :: rest, a, [], i, k, h, _, _ => by simp at h
  | b :: rest, a, v :: vs, i, k, h, hr, hl => by
    have hgl : (a :: b :: rest).getLastD 0 = (b :: rest).getLastD 0 := by simp [List.getLastD_cons]
    rw [hgl] at hl
    have hb := rising_le rest b hr.2
    have hr1 := hr.1
    have ih := fun i k => normWith_rows l rest b vs i k (by simpa using h) hr.2 hl
    simp only [normWith, rowsWith]
    cases v with
    | false =>
      obtain ⟨h1, h2, h3⟩ := ih (i + 1) k
      simp [h1, h2, h3, sums, rowVals, specialsOf, isEmptyRow]
    | true =>
      simp only [Bool.true_eq_false, if_false, if_true]
      have hlen : ((l.drop a).take (b - a)).length = b - a := by simp; omega
      by_cases h0 : b - a = 0
      · obtain ⟨h1, h2, h3⟩ := ih (i + 1) k
        simp [h0, h1, h2, h3, sums, rowVals, specialsOf, isEmptyRow]
      · obtain ⟨h1, h2, h3⟩ := ih (i + 1) (k + (b - a))
        rw [if_neg h0]
        cases hx : (l.drop a).take (b - a) with
        | nil => rw [hx] at hlen; simp at hlen; omega
        | cons x xs =>
          rw [hx] at hlen
          refine ⟨?_, ?_, ?_⟩
          · simp only [sums, rowVals, Option.getD_some, hlen, h1]
          · simp only [specialsOf, h2]
          · simp only [List.any_cons, isEmptyRow, Bool.false_or, h3]

/-- Putting the offsets of arrays together puts their rows together. -/
theorem concatOffsets_rows {A : Type} (ds : List (OffsetDesc × List (Option (List A)))) :
    ∀ (pre : List (Option (List A))), (∀ x ∈ ds, x.1.offsets = 0 :: sums x.2 0 ∧ x.1.specials = specialsOf x.2 0) →
      concatOffsets (ds.map (·.1)) (0 :: sums pre 0) (specialsOf pre 0) =
        (0 :: sums (pre ++ ds.flatMap (·.2)) 0, specialsOf (pre ++ ds.flatMap (·.2)) 0) := by
  induction ds with
  | nil => intro pre _; simp [concatOffsets]
  | cons x ds ih =>
    intro pre h
    obtain ⟨h1, h2⟩ := h x (by simp)
    rw [List.map_cons, concatOffsets, h1, h2, sums_last, List.drop_one, List.tail_cons, sums_shift, specialsOf_shift]
    have e1 : 0 :: sums pre 0 ++ sums x.2 (0 + (0 + (flat pre).length)) = 0 :: sums (pre ++ x.2) 0 := by
      rw [sums_append]; simp
    have e2 : specialsOf pre 0 ++ specialsOf x.2 (0 + ((0 :: sums pre 0).length - 1)) = specialsOf (pre ++ x.2) 0 := by
      rw [specialsOf_append]; simp [sums_length]
    rw [e1, e2, ih _ (fun y hy => h y (by simp [hy]))]
    simp

/-- The loop over offsets. -/
theorem offsetsLoop_rows {A : Type} : ∀ (rows : List (Option (List A))) (pre : List Nat) (k seen : Nat), pre.length = k →
    offsetsLoop none 1 (k :: sums rows k) seen (pre ++ List.replicate (flat rows).length 0) =
      some (startsOf rows k seen, pre ++ repIn rows)
  | [], pre, k, seen, h => by simp [sums, offsetsLoop, startsOf, repIn, flat]
  | none :: rs, pre, k, seen, h => by
    have ih := offsetsLoop_rows rs pre k (seen + 1) h
    simp only [sums, rowVals, Option.getD_none, List.length_nil, Nat.add_zero, offsetsLoop, startOf, if_true]
    simp only [flat, List.flatMap_cons, rowVals, Option.getD_none, List.nil_append] at ih ⊢
    rw [ih]
    simp [startsOf, repIn]
  | some [] :: rs, pre, k, seen, h => by
    have ih := offsetsLoop_rows rs pre k (seen + 1) h
    simp only [sums, rowVals, Option.getD_some, List.length_nil, Nat.add_zero, offsetsLoop, startOf, if_true]
    simp only [flat, List.flatMap_cons, rowVals, Option.getD_some, List.nil_append] at ih ⊢
    rw [ih]
    simp [startsOf, repIn]
  | some (x :: xs) :: rs, pre, k, seen, h => by
    have ih := offsetsLoop_rows rs (pre ++ 1 :: List.replicate xs.length 0) (k + (x :: xs).length) seen (by simp [h])
    simp only [sums, rowVals, Option.getD_some, offsetsLoop, startOf]
    rw [if_neg (by simp)]
    have hset : setAt (pre ++ List.replicate (flat (some (x :: xs) :: rs)).length 0) k 1 =
        some (pre ++ 1 :: List.replicate xs.length 0 ++ List.replicate (flat rs).length 0) := by
      have hl : (flat (some (x :: xs) :: rs)).length = xs.length + (flat rs).length + 1 := by
        simp [flat, rowVals]
      unfold setAt
      rw [hl, if_pos (by simp [h]), List.set_append_right _ _ (by omega), h, Nat.sub_self, List.replicate_succ,
        List.set_cons_zero, ← List.replicate_append_replicate]
      simp
    rw [hset]
    simp only
    rw [ih]
    simp [startsOf, repIn]

/-- The loop over the null and empty lists. -/
theorem specialsLoop_rows {A : Type} (nl el : Nat) (full : List (Nat × Nat)) :
    ∀ (rows : List (Option (List A))) (n i k seen ins : Nat),
      n = (specialsOf rows i).length → (∀ j, full[i + j]? = (startsOf rows k seen)[j]?) →
      specialsLoop full 1 nl el n [] (specialsOf rows i) ins = some (recordsOf nl el rows (k + seen))
  | [], n, i, k, seen, ins, hn, _ => by subst hn; simp [specialsOf, specialsLoop, recordsOf]
  | none :: rs, n, i, k, seen, ins, hn, hf => by
    simp only [specialsOf, List.length_cons] at hn
    have h0 := hf 0
    simp only [startsOf, List.getElem?_cons_zero, Nat.add_zero] at h0
    have ih := specialsLoop_rows nl el full rs (n - 1) (i + 1) k (seen + 1) (ins + 1) (by omega) (fun j => by
      have := hf (j + 1)
      rw [startsOf, List.getElem?_cons_succ] at this
      rw [← this]
      · congr 1; omega
      · simp)
    obtain ⟨m, rfl⟩ : ∃ m, n = m + 1 := ⟨n - 1, by omega⟩
    simp only [specialsOf, specialsLoop, Special.pos, h0]
    rw [show m + 1 - 1 = m by omega] at ih
    rw [ih]
    simp [Special.record, recordsOf, Nat.add_assoc]
  | some [] :: rs, n, i, k, seen, ins, hn, hf => by
    simp only [specialsOf, List.length_cons] at hn
    have h0 := hf 0
    simp only [startsOf, List.getElem?_cons_zero, Nat.add_zero] at h0
    have ih := specialsLoop_rows nl el full rs (n - 1) (i + 1) k (seen + 1) (ins + 1) (by omega) (fun j => by
      have := hf (j + 1)
      rw [startsOf, List.getElem?_cons_succ] at this
      rw [← this]
      · congr 1; omega
      · simp)
    obtain ⟨m, rfl⟩ : ∃ m, n = m + 1 := ⟨n - 1, by omega⟩
    simp only [specialsOf, specialsLoop, Special.pos, h0]
    rw [show m + 1 - 1 = m by omega] at ih
    rw [ih]
    simp [Special.record, recordsOf, Nat.add_assoc]
  | some (x :: xs) :: rs, n, i, k, seen, ins, hn, hf => by
    simp only [specialsOf] at hn
    have ih := specialsLoop_rows nl el full rs n (i + 1) (k + (x :: xs).length) seen ins hn (fun j => by
      have := hf (j + 1)
      rw [startsOf, List.getElem?_cons_succ] at this
      rw [← this]
      congr 1; omega)
    simp only [specialsOf]
    rw [ih, recordsOf, List.length_cons]
    congr 2
    omega

/-! ### Putting the null and empty lists among the levels -/

theorem recordsOf_pos {A : Type} (nl el : Nat) : ∀ (rows : List (Option (List A))) (i : Nat), ∀ r ∈ recordsOf nl el rows i, i ≤ r.pos
  | [], i, r, h => by simp [recordsOf] at h
  | none :: rs, i, r, h => by
    simp only [recordsOf, List.mem_cons] at h
    rcases h with h | h
    · subst h; exact Nat.le_refl _
    · have := recordsOf_pos nl el rs _ r h; omega
  | some [] :: rs, i, r, h => by
    simp only [recordsOf, List.mem_cons] at h
    rcases h with h | h
    · subst h; exact Nat.le_refl _
    · have := recordsOf_pos nl el rs _ r h; omega
  | some (x :: xs) :: rs, i, r, h => by
    simp only [recordsOf] at h
    have := recordsOf_pos nl el rs _ r h; omega

/-- One entry that is no special. -/
theorem collapseLoop_item (n idx : Nat) (rs : List Record) (hr : ∀ r ∈ rs, idx < r.pos) (c c' : Collapse) (after : Bool)
    (h : c.item after = some c') : collapseLoop (n + 1) idx rs c after = collapseLoop n (idx + 1) rs c' false := by
  cases rs with
  | nil => rw [collapseLoop, h]
  | cons s ss =>
    have := hr s (by simp)
    rw [collapseLoop, if_neg (by omega), h]

/-- The definition levels still to come. -/
def restDefs (withDefs : Bool) (ds : List Nat) : Option (List Nat) := if withDefs then some ds else none

theorem item_first (w : Bool) (rs ds : List Nat) (d : Nat) (oR oD : List Nat) (after : Bool) (hw : w = false → d = 0)
    (h : after = true → oR.head? = some 1) :
    Collapse.item ⟨1 :: rs, restDefs w (d :: ds), oR, oD⟩ after = some ⟨rs, restDefs w ds, 1 :: oR, d :: oD⟩ := by
  have hp : Collapse.item.push ⟨1 :: rs, restDefs w (d :: ds), oR, oD⟩ after 1 = 1 :: oR := by
    unfold Collapse.item.push
    cases after with
    | false => rfl
    | true =>
      have := h rfl
      cases oR with
      | nil => simp at this
      | cons o oR =>
        simp only [List.head?_cons, Option.some.injEq] at this
        subst this
        rfl
  cases w with
  | true => simp only [restDefs, if_true, Collapse.item] at hp ⊢; rw [hp]
  | false =>
    rw [hw rfl] at hp ⊢
    simp only [restDefs, Bool.false_eq_true, if_false, Collapse.item] at hp ⊢; rw [hp]

theorem item_next (w : Bool) (r : Nat) (rs ds : List Nat) (d : Nat) (oR oD : List Nat) (hw : w = false → d = 0) :
    Collapse.item ⟨r :: rs, restDefs w (d :: ds), oR, oD⟩ false = some ⟨rs, restDefs w ds, r :: oR, d :: oD⟩ := by
  cases w with
  | true => rfl
  | false => rw [hw rfl]; rfl

theorem collapseLoop_items (w : Bool) (records : List Record) (rest : List Nat) (rrest : List Nat) :
    ∀ (xs : List Nat) (n idx : Nat) (oR oD : List Nat), (∀ r ∈ records, idx + xs.length ≤ r.pos) → (w = false → ∀ d ∈ xs, d = 0) →
      collapseLoop (xs.length + n) idx records ⟨List.replicate xs.length 0 ++ rrest, restDefs w (xs ++ rest), oR, oD⟩ false =
        collapseLoop n (idx + xs.length) records ⟨rrest, restDefs w rest, (List.replicate xs.length 0).reverse ++ oR, xs.reverse ++ oD⟩ false
  | [], n, idx, oR, oD, _, _ => by simp
  | x :: xs, n, idx, oR, oD, h, hw => by
    have ih := collapseLoop_items w records rest rrest xs n (idx + 1) (0 :: oR) (x :: oD)
      (fun r hr => by have := h r hr; simp only [List.length_cons] at this; omega) (fun h0 d hd => hw h0 d (by simp [hd]))
    rw [List.length_cons, show xs.length + 1 + n = xs.length + n + 1 by omega]
    rw [collapseLoop_item _ _ _ (fun r hr => by have := h r hr; simp only [List.length_cons] at this; omega) _
      ⟨List.replicate xs.length 0 ++ rrest, restDefs w (xs ++ rest), 0 :: oR, x :: oD⟩ _
      (by rw [List.replicate_succ]; exact item_next w 0 _ _ x oR oD (fun h0 => hw h0 x (by simp)))]
    rw [ih]
    congr 1
    · omega
    · simp only [List.length_cons, List.replicate_succ, List.reverse_cons, List.append_assoc, List.cons_append, List.nil_append]

theorem collapseLoop_rows (w : Bool) (nl el : Nat) : ∀ (rows : List (Option (List Nat))) (idx : Nat) (oR oD : List Nat) (after : Bool),
    (after = true → oR.head? = some 1) → (w = false → ∀ d ∈ flat rows, d = 0) →
    collapseLoop ((repIn rows).length + (recordsOf nl el rows idx).length) idx (recordsOf nl el rows idx)
        ⟨repIn rows, restDefs w (flat rows), oR, oD⟩ after =
      some (oR.reverse ++ repOut rows, oD.reverse ++ defOut nl el rows)
  | [], idx, oR, oD, after, _, _ => by simp [repIn, recordsOf, collapseLoop, repOut, defOut]
  | none :: rs, idx, oR, oD, after, _, hw => by
    have ih := collapseLoop_rows w nl el rs (idx + 1) (1 :: oR) (nl :: oD) true (fun _ => rfl) hw
    simp only [repIn, recordsOf, List.length_cons]
    rw [← Nat.add_assoc, collapseLoop, if_pos rfl]
    simp only
    rw [show flat (none :: rs) = flat rs from rfl, ih]
    simp [repOut, defOut]
  | some [] :: rs, idx, oR, oD, after, _, hw => by
    have ih := collapseLoop_rows w nl el rs (idx + 1) (1 :: oR) (el :: oD) true (fun _ => rfl) hw
    simp only [repIn, recordsOf, List.length_cons]
    rw [← Nat.add_assoc, collapseLoop, if_pos rfl]
    simp only
    rw [show flat (some [] :: rs) = flat rs from rfl, ih]
    simp [repOut, defOut]
  | some (x :: xs) :: rs, idx, oR, oD, after, ha, hw => by
    have hflat : flat (some (x :: xs) :: rs) = x :: (xs ++ flat rs) := by simp [flat, rowVals]
    rw [hflat] at hw ⊢
    have ih := collapseLoop_rows w nl el rs (idx + (xs.length + 1)) ((List.replicate xs.length 0).reverse ++ 1 :: oR) (xs.reverse ++ x :: oD) false
      (by simp) (fun h0 d hd => hw h0 d (by simp [hd]))
    have hpos := recordsOf_pos nl el rs (idx + (xs.length + 1))
    simp only [repIn, recordsOf, List.length_cons, List.length_append, List.length_replicate]
    rw [show xs.length + (repIn rs).length + 1 + (recordsOf nl el rs (idx + (xs.length + 1))).length
      = (xs.length + ((repIn rs).length + (recordsOf nl el rs (idx + (xs.length + 1))).length)) + 1 by omega]
    rw [collapseLoop_item _ _ _ (fun r hr => by have := hpos r hr; omega) _ _ _
      (item_first w (List.replicate xs.length 0 ++ repIn rs) (xs ++ flat rs) x oR oD after (fun h0 => hw h0 x (by simp)) ha)]
    rw [collapseLoop_items w _ _ _ xs _ _ _ _ (fun r hr => by have := hpos r hr; omega) (fun h0 d hd => hw h0 d (by simp [hd]))]
    rw [show idx + 1 + xs.length = idx + (xs.length + 1) by omega, ih]
    simp [repOut, defOut]

theorem fillLoop_true (lvl mult : Nat) : ∀ (offs : List Nat) (bs : List Bool) (ds : List Nat), bs.all id = true →
    fillLoop mult lvl offs bs ds = some ds
  | [], _, _, _ => by simp [fillLoop]
  | [_], _, _, _ => by simp [fillLoop]
  | _ :: _ :: _, [], _, _ => by simp [fillLoop]
  | a :: b :: rest, v :: vs, ds, h => by
    simp only [List.all_cons, id, Bool.and_eq_true] at h
    simp only [fillLoop, h.1, Bool.true_eq_false, if_false]
    exact fillLoop_true lvl mult (b :: rest) vs ds (by simpa using h.2)

/-- Bitmaps without nulls recorded around lists. -/
theorem recordAll_outer (n : Nat) (last : List (Nat × Nat)) (bs : List (Option (List Bool))) :
    ∀ c : Ctx, c.last = some last → (bs.any Option.isSome = true → c.defs ≠ []) →
      (∀ b, some b ∈ bs → b.all id = true) →
      Ctx.recordAll (bs.map (Raw.validity · n)) c =
        some { c with layers := c.layers ++ bs.map bitLayer, curDef := c.curDef + defSum (bs.map bitLayer),
                      hasNulls := c.hasNulls || bs.any Option.isSome } := by
  induction bs with
  | nil => intro c _ _ _; simp [Ctx.recordAll, defSum]
  | cons b bs ih =>
    intro c hl hd ht
    cases b with
    | none =>
      simp only [List.map_cons, Ctx.recordAll, Ctx.record, Ctx.recordBits]
      rw [ih]
      · simp [Ctx.checkout, Layer.defLevels, bitLayer, defSum]
      · exact hl
      · intro h; exact hd (by simpa using h)
      · intro x hx; exact ht x (by simp [hx])
    | some x =>
      have hne : c.defs ≠ [] := hd (by simp)
      simp only [List.map_cons, Ctx.recordAll, Ctx.record, Ctx.recordBits, Ctx.doRecord, Ctx.checkout, if_neg hne, hl,
        fillLoop_true _ _ _ _ _ (ht x (by simp)), Option.map_some]
      rw [ih]
      · simp [Layer.defLevels, bitLayer, defSum, Nat.add_assoc, hl]
      · rfl
      · intro _; exact hne
      · intro x hx; exact ht x (by simp [hx])

end Verif.RepDef
