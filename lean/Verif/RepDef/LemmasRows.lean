import Verif.RepDef.LemmasRead
/-!
# Lemmas on levels: the rows of a list array and the values under them
-/
namespace Verif.RepDef
open Verif.Mini (Layer RepDefs)

/-! ### Slices and filters of arrays without lists -/

theorem mask_slice {V : Type} (bits : Option (List Bool)) (vs : List (Val V)) (s n : Nat) :
    mask (bits.map fun b => (b.drop s).take n) ((vs.drop s).take n) = ((mask bits vs).drop s).take n := by
  cases bits with
  | none => simp [mask, List.map_take, List.map_drop]
  | some bs => simp [mask, List.take_zipWith, List.drop_zipWith]

theorem slice_chain {V : Type} (q s n : Nat) : ∀ a : Arr V, a.Ok (List.replicate q .struct) → s + n ≤ a.len →
    (a.slice s n).Ok (List.replicate q .struct) ∧ (a.slice s n).len = n ∧ (a.slice s n).cells = (a.cells.drop s).take n := by
  induction q with
  | zero =>
    intro a h hl
    cases a <;> simp only [List.replicate_zero, Arr.Ok] at h
    rename_i vals bits
    simp only [Arr.len] at hl
    refine ⟨?_, ?_, ?_⟩
    · intro bs hbs
      cases bits with
      | none => simp at hbs
      | some b =>
        simp only [Option.map_some, Option.some.injEq] at hbs
        subst hbs
        have := h b rfl
        simp [this]
    · simp only [Arr.slice, Arr.len, List.length_take, List.length_drop]; omega
    · simp only [Arr.slice, Arr.cells, List.map_take, List.map_drop]
      exact mask_slice _ _ _ _
  | succ q ih =>
    intro a h hl
    cases a <;> simp only [List.replicate_succ, Arr.Ok] at h
    rename_i c bits
    simp only [Arr.len] at hl
    obtain ⟨h1, h2, h3⟩ := ih c h.1 hl
    refine ⟨⟨h1, ?_⟩, h2, ?_⟩
    · intro bs hbs
      cases bits with
      | none => simp at hbs
      | some b =>
        simp only [Option.map_some, Option.some.injEq] at hbs
        subst hbs
        have := h.2 b rfl
        rw [h2]
        simp [this]; omega
    · simp only [Arr.slice, Arr.cells, h3]
      exact mask_slice _ _ _ _

theorem keep_length {A B : Type} : ∀ (m : List Bool) (xs : List A) (ys : List B), xs.length = ys.length →
    (keep m xs).length = (keep m ys).length
  | [], _, _, _ => by simp [keep]
  | _ :: _, [], [], _ => by simp [keep]
  | b :: m, x :: xs, y :: ys, h => by
    have := keep_length m xs ys (by simpa using h)
    cases b <;> simp [keep, this]
  | _ :: _, [], _ :: _, h => by simp at h
  | _ :: _, _ :: _, [], h => by simp at h

theorem keep_map {A B : Type} (f : A → B) : ∀ (m : List Bool) (xs : List A), keep m (xs.map f) = (keep m xs).map f
  | [], _ => by simp [keep]
  | _ :: _, [] => by simp [keep]
  | b :: m, x :: xs => by cases b <;> simp [keep, keep_map f m xs]

theorem keep_zipWith {A B C : Type} (f : A → B → C) : ∀ (m : List Bool) (xs : List A) (ys : List B),
    keep m (List.zipWith f xs ys) = List.zipWith f (keep m xs) (keep m ys)
  | [], _, _ => by simp [keep]
  | _ :: _, [], ys => by simp [keep]
  | _ :: _, _ :: _, [] => by simp [keep]
  | b :: m, x :: xs, y :: ys => by cases b <;> simp [keep, keep_zipWith f m xs ys]

theorem zipWith_all {V : Type} : ∀ (bs : List Bool) (vs : List (Val V)), bs.length = vs.length → bs.all id = true →
    List.zipWith (fun b v => if b then Val.valid v else Val.null) bs vs = vs.map .valid
  | [], [], _, _ => rfl
  | b :: bs, v :: vs, h, ha => by
    simp only [List.all_cons, id, Bool.and_eq_true] at ha
    simp [ha.1, zipWith_all bs vs (by simpa using h) (by simpa using ha.2)]
  | [], _ :: _, h, _ => by simp at h
  | _ :: _, [], h, _ => by simp at h

theorem mask_keep {V : Type} (m : List Bool) (bits : Option (List Bool)) (vs : List (Val V)) (h : BitsOk bits vs.length) :
    mask (keepBits m bits) (keep m vs) = keep m (mask bits vs) := by
  cases bits with
  | none => simp [mask, keepBits, keep_map]
  | some bs =>
    have hl := h bs rfl
    simp only [keepBits]
    split
    · rename_i ha
      simp only [mask]
      rw [keep_zipWith, zipWith_all _ _ (keep_length m _ _ hl) ha]
    · simp only [mask]
      rw [keep_zipWith]

theorem keepBits_ok {A : Type} (m : List Bool) (bits : Option (List Bool)) (xs : List A) (h : BitsOk bits xs.length) :
    BitsOk (keepBits m bits) (keep m xs).length := by
  cases bits with
  | none => intro bs hbs; simp [keepBits] at hbs
  | some b =>
    intro bs hbs
    simp only [keepBits] at hbs
    split at hbs
    · simp at hbs
    · simp only [Option.some.injEq] at hbs
      subst hbs
      exact keep_length m _ _ (h b rfl)

theorem cells_length {V : Type} (q : Nat) : ∀ a : Arr V, a.Ok (List.replicate q .struct) → a.cells.length = a.len := by
  induction q with
  | zero =>
    intro a h
    cases a <;> simp only [List.replicate_zero, Arr.Ok] at h
    simp only [Arr.cells, Arr.len]
    rw [mask_length _ _ (by rw [List.length_map]; exact h), List.length_map]
  | succ q ih =>
    intro a h
    cases a <;> simp only [List.replicate_succ, Arr.Ok] at h
    rename_i c bits
    simp only [Arr.cells, Arr.len]
    rw [mask_length _ _ (by rw [ih c h.1]; exact h.2), ih c h.1]

theorem filter_chain {V : Type} (q : Nat) (m : List Bool) : ∀ a : Arr V, a.Ok (List.replicate q .struct) →
    (a.filter m).Ok (List.replicate q .struct) ∧ (a.filter m).cells = keep m a.cells := by
  induction q with
  | zero =>
    intro a h
    cases a <;> simp only [List.replicate_zero, Arr.Ok] at h
    rename_i vals bits
    refine ⟨keepBits_ok m bits vals h, ?_⟩
    simp only [Arr.filter, Arr.cells]
    rw [← keep_map, mask_keep _ _ _ (by rw [List.length_map]; exact h)]
  | succ q ih =>
    intro a h
    cases a <;> simp only [List.replicate_succ, Arr.Ok] at h
    rename_i c bits
    obtain ⟨h1, h2⟩ := ih c h.1
    refine ⟨⟨h1, ?_⟩, ?_⟩
    · rw [← cells_length q _ h1, h2]
      exact keepBits_ok m bits c.cells (by rw [cells_length q _ h.1]; exact h.2)
    · simp only [Arr.filter, Arr.cells, h2]
      exact mask_keep _ _ _ (by rw [cells_length q _ h.1]; exact h.2)

/-! ### Rows -/

/-- The bits of a layer, all set where there is no bitmap. -/
def bitsOr (bits : Option (List Bool)) (n : Nat) : List Bool := bits.getD (List.replicate n true)

/-- The rows of a list array: `none` for a null list. -/
def rowsWith {A : Type} (l : List A) : List Nat → List Bool → List (Option (List A))
  | a :: b :: rest, v :: vs => (if v then some ((l.drop a).take (b - a)) else none) :: rowsWith l (b :: rest) vs
  | _, _ => []

/-- What is in a row. -/
def rowVals {A : Type} (r : Option (List A)) : List A := r.getD []

/-- What is in rows. -/
def flat {A : Type} (rows : List (Option (List A))) : List A := rows.flatMap rowVals

/-- The cell of a row. -/
def rowCell {V : Type} : Option (List (Val V)) → Val V
  | none => .null
  | some cs => .valid (.list cs)

theorem mask_bitsOr {V : Type} (bits : Option (List Bool)) (vs : List (Val V)) (h : BitsOk bits vs.length) :
    mask bits vs = List.zipWith (fun b v => if b then Val.valid v else Val.null) (bitsOr bits vs.length) vs := by
  cases bits with
  | none =>
    simp only [mask, bitsOr, Option.getD_none]
    rw [zipWith_all _ _ (by simp) (by simp)]
  | some bs => rfl

theorem slices_length {A : Type} (l : List A) : ∀ offs : List Nat, (slices l offs).length = offs.length - 1
  | [] => rfl
  | [_] => rfl
  | a :: b :: rest => by
    simp only [slices, List.length_cons]
    rw [slices_length l (b :: rest)]
    simp

theorem rows_cells {V : Type} (l : List (Val V)) : ∀ (offs : List Nat) (bs : List Bool),
    List.zipWith (fun b v => if b then Val.valid v else Val.null) bs ((slices l offs).map .list) = (rowsWith l offs bs).map rowCell
  | [], _ => by simp [slices, rowsWith]
  | [_], _ => by simp [slices, rowsWith]
  | a :: b :: rest, [] => by simp [rowsWith]
  | a :: b :: rest, v :: vs => by
    simp only [slices, rowsWith, List.map_cons, List.zipWith_cons_cons, rows_cells l (b :: rest) vs]
    cases v <;> simp [rowCell]

/-- The cells of a list array are its rows. -/
theorem list_cells {V : Type} (offs : List Nat) (c : Arr V) (bits : Option (List Bool)) (h : BitsOk bits (offs.length - 1)) :
    (Arr.list offs c bits).cells = (rowsWith c.cells offs (bitsOr bits (offs.length - 1))).map rowCell := by
  have hl : ((slices c.cells offs).map (Val.list (V := V))).length = offs.length - 1 := by rw [List.length_map, slices_length]
  rw [Arr.cells, mask_bitsOr _ _ (by rw [hl]; exact h), hl, rows_cells]

theorem rowsWith_length {A : Type} (l : List A) : ∀ (offs : List Nat) (bs : List Bool), bs.length = offs.length - 1 →
    (rowsWith l offs bs).length = bs.length
  | [], bs, h => by simp at h; simp [rowsWith, h]
  | [_], bs, h => by simp at h; simp [rowsWith, h]
  | a :: b :: rest, [], h => by simp at h
  | a :: b :: rest, v :: vs, h => by
    simp only [rowsWith, List.length_cons]
    rw [rowsWith_length l (b :: rest) vs (by simpa using h)]

theorem rising_le : ∀ (rest : List Nat) (a : Nat), Rising (a :: rest) → a ≤ (a :: rest).getLastD 0
  | [], a, _ => by simp
  | b :: rest, a, h => by
    have := rising_le rest b h.2
    rw [List.getLastD_cons, List.getLastD_cons] at *
    have h1 := h.1
    omega

/-- Without garbage the values between the first and the last offset are those of the rows. -/
theorem flat_plain {A : Type} (l : List A) : ∀ (rest : List Nat) (a : Nat) (bs : List Bool), bs.length = rest.length →
    Rising (a :: rest) → (a :: rest).getLastD 0 ≤ l.length → ((normWith (a :: rest) bs 0 0).garbage = false) →
    flat (rowsWith l (a :: rest) bs) = (l.drop a).take ((a :: rest).getLastD 0 - a)
  | [], a, bs, _, _, _, _ => by simp [rowsWith, flat]
  | b :: rest, a, [], h, _, _, _ => by simp at h
  | b :: rest, a, v :: vs, h, hr, hl, hg => by
    have hb := rising_le rest b hr.2
    have hgl : (a :: b :: rest).getLastD 0 = (b :: rest).getLastD 0 := by simp [List.getLastD_cons]
    rw [hgl] at hl ⊢
    have hr1 := hr.1
    have key : ∀ (idx last idx' last' : Nat), (normWith (b :: rest) vs idx last).garbage = (normWith (b :: rest) vs idx' last').garbage := by
      have : ∀ (o : List Nat) (w : List Bool) (idx last idx' last' : Nat), (normWith o w idx last).garbage = (normWith o w idx' last').garbage := by
        intro o
        induction o with
        | nil => intros; simp [normWith]
        | cons x o ih =>
          intro w idx last idx' last'
          cases o with
          | nil => simp [normWith]
          | cons y o =>
            cases w with
            | nil => simp [normWith]
            | cons z w =>
              simp only [normWith]
              split
              · simp only [ih w _ _ (idx' + 1) last']
              · split
                · simp only [ih w _ _ (idx' + 1) last']
                · simp only [ih w _ _ (idx' + 1) (last' + (y - x))]
      exact this _ _
    have ih := flat_plain l rest b vs (by simpa using h) hr.2 hl
    simp only [normWith] at hg
    simp only [rowsWith, flat, List.flatMap_cons] at ih ⊢
    have hsplit : (l.drop a).take ((b :: rest).getLastD 0 - a) =
        (l.drop a).take (b - a) ++ (l.drop b).take ((b :: rest).getLastD 0 - b) := by
      rw [show (b :: rest).getLastD 0 - a = (b - a) + ((b :: rest).getLastD 0 - b) by omega, List.take_add, List.drop_drop,
        show a + (b - a) = b by omega]
    rw [hsplit]
    split at hg
    · rename_i hv
      simp only [Bool.or_eq_false_iff, decide_eq_false_iff_not, ne_eq, Decidable.not_not] at hg
      rw [ih (by rw [← hg.2]; exact key _ _ _ _), hv, hg.1]
      simp [rowVals]
    · rename_i hv
      simp only [Bool.not_eq_false] at hv
      subst hv
      split at hg
      · rename_i h0
        rw [ih (by rw [← hg]; exact key _ _ _ _)]
        simp [rowVals]
      · rw [ih (by rw [← hg]; exact key _ _ _ _)]
        simp [rowVals]

theorem keep_append {A : Type} : ∀ (m : List Bool) (n : List Bool) (xs : List A), m.length ≤ xs.length →
    keep (m ++ n) xs = keep m (xs.take m.length) ++ keep n (xs.drop m.length)
  | [], n, xs, _ => by simp [keep]
  | b :: m, n, [], h => by simp at h
  | b :: m, n, x :: xs, h => by
    have := keep_append m n xs (by simpa using h)
    cases b <;> simp [keep, this]

theorem keep_replicate {A : Type} (v : Bool) : ∀ (n : Nat) (xs : List A), keep (List.replicate n v) xs = if v then xs.take n else []
  | 0, xs => by cases v <;> simp [keep]
  | n + 1, [] => by cases v <;> simp [keep, List.replicate_succ]
  | n + 1, x :: xs => by
    have := keep_replicate v n xs
    cases v <;> simp [keep, List.replicate_succ, this]

/-- The values that the mask of the lists keeps are those of the rows. -/
theorem keep_rows {A : Type} (l : List A) : ∀ (rest : List Nat) (a : Nat) (bs : List Bool) (k : Nat), bs.length = rest.length →
    Rising (a :: rest) → (a :: rest).getLastD 0 ≤ l.length →
    keep (((lensOf (a :: rest)).zip bs).flatMap (fun x => List.replicate x.1 x.2) ++ List.replicate k false) (l.drop a) =
      flat (rowsWith l (a :: rest) bs)
  | [], a, bs, k, _, _, _ => by simp [lensOf, rowsWith, flat, keep_replicate]
  | b :: rest, a, [], k, h, _, _ => by simp at h
  | b :: rest, a, v :: vs, k, h, hr, hl => by
    have hgl : (a :: b :: rest).getLastD 0 = (b :: rest).getLastD 0 := by simp [List.getLastD_cons]
    rw [hgl] at hl
    have hb := rising_le rest b hr.2
    have hr1 := hr.1
    have ih := keep_rows l rest b vs k (by simpa using h) hr.2 hl
    simp only [lensOf, List.zip_cons_cons, List.flatMap_cons, rowsWith, flat, List.append_assoc] at ih ⊢
    rw [keep_append _ _ _ (by simp; omega)]
    rw [List.length_replicate, List.drop_drop, show a + (b - a) = b by omega, ih, keep_replicate]
    cases v <;> simp [rowVals, List.take_take]

theorem offsetsOf_last : ∀ (ns : List Nat) (k : Nat), (offsetsOf ns k).getLastD 0 = k + ns.sum
  | [], k => by simp [offsetsOf]
  | n :: ns, k => by
    have := offsetsOf_last ns (k + n)
    rw [offsetsOf, List.getLastD_cons]
    cases hq : offsetsOf ns (k + n) with
    | nil => cases ns <;> simp [offsetsOf] at hq
    | cons y ys =>
      rw [hq] at this
      rw [List.getLastD_cons] at this ⊢
      rw [this]
      simp [Nat.add_assoc]

theorem offsetsOf_head (ns : List Nat) (k : Nat) : (offsetsOf ns k).headD 0 = k := by
  cases ns <;> simp [offsetsOf]

/-- The lengths of rows. -/
theorem rows_lens {A : Type} (l : List A) : ∀ (rest : List Nat) (a : Nat) (bs : List Bool), bs.length = rest.length →
    Rising (a :: rest) → (a :: rest).getLastD 0 ≤ l.length →
    (((lensOf (a :: rest)).zip bs).map fun x => if x.2 then x.1 else 0) = (rowsWith l (a :: rest) bs).map fun r => (rowVals r).length
  | [], a, bs, _, _, _ => by simp [lensOf, rowsWith]
  | b :: rest, a, [], h, _, _ => by simp at h
  | b :: rest, a, v :: vs, h, hr, hl => by
    have hgl : (a :: b :: rest).getLastD 0 = (b :: rest).getLastD 0 := by simp [List.getLastD_cons]
    rw [hgl] at hl
    have hb := rising_le rest b hr.2
    have hr1 := hr.1
    have ih := rows_lens l rest b vs (by simpa using h) hr.2 hl
    simp only [lensOf, List.zip_cons_cons, List.map_cons, rowsWith]
    rw [ih]
    cases v
    · simp [rowVals]
    · simp [rowVals]; omega

theorem flat_length {A : Type} (rows : List (Option (List A))) : (flat rows).length = (rows.map fun r => (rowVals r).length).sum := by
  rw [flat, List.length_flatMap]

theorem normPlain_garbage : ∀ (offs : List Nat) (i k : Nat), (normPlain offs i k).garbage = false
  | [], _, _ => rfl
  | [_], _, _ => rfl
  | a :: b :: rest, i, k => by
    simp only [normPlain]
    split <;> exact normPlain_garbage (b :: rest) _ _

theorem normPlain_with : ∀ (offs : List Nat) (i k : Nat), normPlain offs i k = normWith offs (List.replicate (offs.length - 1) true) i k
  | [], _, _ => by simp [normPlain, normWith]
  | [_], _, _ => by simp [normPlain, normWith]
  | a :: b :: rest, i, k => by
    have ih := normPlain_with (b :: rest)
    simp only [List.length_cons, Nat.add_sub_cancel] at ih ⊢
    rw [List.replicate_succ]
    simp only [normPlain, normWith, ih, Bool.true_eq_false, if_false]
    split
    · rename_i h0; simp [h0]
    · rfl

theorem norm_bitsOr (offs : List Nat) (bits : Option (List Bool)) : norm offs bits = normWith offs (bitsOr bits (offs.length - 1)) 0 0 := by
  cases bits with
  | none => exact normPlain_with offs 0 0
  | some bs => rfl

/-- The values that the list encoder passes on. -/
theorem listValues_ok {V : Type} (q : Nat) (offs : List Nat) (bits : Option (List Bool)) (c : Arr V)
    (hok : (Arr.list offs c bits).Ok (.list :: List.replicate q .struct)) :
    (listValues offs bits c (norm offs bits).garbage).Ok (List.replicate q .struct) ∧
    (listValues offs bits c (norm offs bits).garbage).cells = flat (rowsWith c.cells offs (bitsOr bits (offs.length - 1))) := by
  obtain ⟨hc, hb, hne, hr, hlast⟩ := hok
  cases offs with
  | nil => exact absurd rfl hne
  | cons a rest =>
    have hcl := cells_length q c hc
    have hbl : (bitsOr bits ((a :: rest).length - 1)).length = rest.length := by
      cases bits with
      | none => simp [bitsOr]
      | some bs => simpa [bitsOr] using hb bs rfl
    have hrl := rising_le rest a hr
    have hplain : (normWith (a :: rest) (bitsOr bits ((a :: rest).length - 1)) 0 0).garbage = false →
        (trimmed (a :: rest) c).Ok (List.replicate q .struct) ∧
        (trimmed (a :: rest) c).cells = flat (rowsWith c.cells (a :: rest) (bitsOr bits ((a :: rest).length - 1))) := by
      intro hg
      have h1 := slice_chain q a ((a :: rest).getLastD 0 - a) c hc (by omega)
      refine ⟨h1.1, ?_⟩
      rw [flat_plain c.cells rest a _ hbl hr (by rw [hcl]; exact hlast) hg]
      exact h1.2.2
    rw [norm_bitsOr]
    cases hg : (normWith (a :: rest) (bitsOr bits ((a :: rest).length - 1)) 0 0).garbage with
    | false =>
      have : listValues (a :: rest) bits c false = trimmed (a :: rest) c := by cases bits <;> rfl
      rw [this]
      exact hplain hg
    | true =>
      cases bits with
      | none =>
        rw [← norm_bitsOr (a :: rest) none] at hg
        simp only [norm] at hg
        rw [normPlain_garbage] at hg
        simp at hg
      | some bs =>
        simp only [bitsOr, Option.getD_some] at hbl ⊢
        simp only [listValues]
        obtain ⟨h1, h2⟩ := filter_chain q (valueMask (a :: rest) bs c.len) c hc
        have hkeep : keep (valueMask (a :: rest) bs c.len) c.cells = flat (rowsWith c.cells (a :: rest) bs) := by
          simp only [valueMask, List.headD_cons]
          rw [List.append_assoc, keep_append _ _ _ (by rw [List.length_replicate, hcl]; omega)]
          rw [keep_replicate, List.length_replicate, keep_rows c.cells rest a bs _ hbl hr (by rw [hcl]; exact hlast)]
          simp
        rw [hkeep] at h2
        have hlen : (c.filter (valueMask (a :: rest) bs c.len)).len = (flat (rowsWith c.cells (a :: rest) bs)).length := by
          rw [← cells_length q _ h1, h2]
        have hlens := rows_lens c.cells rest a bs hbl hr (by rw [hcl]; exact hlast)
        rw [hlens]
        have h3 := slice_chain q 0 (flat (rowsWith c.cells (a :: rest) bs)).length _ h1 (by rw [hlen]; omega)
        unfold trimmed
        rw [offsetsOf_head, offsetsOf_last, Nat.zero_add, Nat.sub_zero, ← flat_length]
        refine ⟨h3.1, ?_⟩
        rw [h3.2.2, h2]
        simp

end Verif.RepDef
