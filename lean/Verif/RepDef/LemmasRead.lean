import Verif.RepDef.LemmasSer
/-!
# Lemmas on levels: reading the layers inside of the lists
-/
namespace Verif.RepDef
open Verif.Mini (Layer RepDefs)

/-- The unraveler of a page after `k` layers of bitmaps. -/
def advance (k : Nat) (rd : RepDefs) : Unraveler :=
  ⟨rd.rep, rd.defs, 0 :: levelsToRep rd.layers 0, rd.layers, defSum (rd.layers.take k), 0, k⟩

/-- The levels that stand for values. -/
def shown (rd : RepDefs) (ds : List Nat) : List Nat :=
  ds.filter fun d => decide ((0 :: levelsToRep rd.layers 0)[d]? = some 0)

/-- A page (with the levels of its values) that starts with the given layers of bitmaps. -/
structure PageIn (inner : List Layer) (p : RepDefs × List Nat) : Prop where
  layers : ∃ rest, p.1.layers = inner ++ rest
  levels : ∀ ds, p.1.defs = some ds → (∀ d ∈ ds, d < (0 :: levelsToRep p.1.layers 0).length) ∧ p.2 = shown p.1 ds
  some : Layer.nullableItem ∈ inner → p.1.defs.isSome = true

def isItem (l : Layer) : Prop := l = .nullableItem ∨ l = .allValidItem

theorem seenValid_shown (rd : RepDefs) (cmp : Nat) (ds : List Nat)
    (h : ∀ d ∈ ds, d < (0 :: levelsToRep rd.layers 0).length) :
    seenValid (0 :: levelsToRep rd.layers 0) 0 cmp ds = some ((shown rd ds).map fun d => decide (d ≤ cmp)) := by
  induction ds with
  | nil => rfl
  | cons d ds ih =>
    have hd := h d (by simp)
    rw [seenValid, ih (fun x hx => h x (by simp [hx])), List.getElem?_eq_getElem hd]
    simp only [shown, List.filter_cons]
    rw [List.getElem?_eq_getElem hd]
    by_cases h0 : (0 :: levelsToRep rd.layers 0)[d] = 0
    · simp [h0]
    · rw [if_neg (by omega), if_neg (by simpa using h0)]

theorem take_inner {A : Type} (inner rest : List A) (k : Nat) (h : k ≤ inner.length) :
    (inner ++ rest).take k = inner.take k := by
  rw [List.take_append]
  simp [show k - inner.length = 0 by omega]

theorem defSum_take_succ (inner : List Layer) (k : Nat) (h : k < inner.length) :
    defSum (inner.take (k + 1)) = defSum (inner.take k) + (inner[k]).defLevels := by
  rw [← List.take_append_getElem h]
  simp only [defSum, List.map_append, List.sum_append, List.map_cons, List.map_nil, List.sum_cons, List.sum_nil, Nat.add_zero]

/-- Reading one layer of bitmaps. -/
theorem unravelValidity_step (inner : List Layer) (hi : ∀ l ∈ inner, isItem l) (ps : List (RepDefs × List Nat))
    (hne : ps ≠ []) (hp : ∀ p ∈ ps, PageIn inner p) (k : Nat) (hk : k < inner.length) :
    unravelValidity (ps.map fun p => advance k p.1) =
      some (ps.map (fun p => advance (k + 1) p.1),
        if inner[k] = .nullableItem then
          some ((ps.flatMap (·.2)).map fun d => decide (d ≤ defSum (inner.take k))) else none) := by
  have hflag : (ps.map fun p => advance k p.1).mapM Unraveler.allValid = some (ps.map fun _ => isAllValid inner[k]) := by
    rw [mapM_some_iff, List.map_map, List.map_map]
    apply List.map_congr_left
    intro p hpm
    obtain ⟨rest, hr⟩ := (hp p hpm).layers
    simp only [Function.comp, Unraveler.allValid, advance, hr]
    rw [List.getElem?_append_left hk, List.getElem?_eq_getElem hk]
    rfl
  have hcase := hi _ (List.getElem_mem hk)
  unfold unravelValidity
  rw [hflag]
  simp only [List.all_map]
  rcases hcase with h1 | h1
  · have hf : (ps.all (id ∘ fun _ => isAllValid inner[k])) = false := by
      cases ps with
      | nil => exact absurd rfl hne
      | cons p ps => simp [h1, isAllValid]
    rw [hf]
    simp only [Bool.false_eq_true, if_false]
    rw [if_pos h1]
    suffices hs : ∀ (qs : List (RepDefs × List Nat)) (bits : List Bool), (∀ p ∈ qs, PageIn inner p) →
        validityLoop (qs.map fun p => advance k p.1) bits = some (qs.map (fun p => advance (k + 1) p.1),
          bits ++ ((qs.flatMap (·.2)).map fun d => decide (d ≤ defSum (inner.take k)))) by
      rw [hs ps [] hp]; simp
    intro qs
    induction qs with
    | nil => intro bits _; simp [validityLoop]
    | cons p qs ih =>
      intro bits hq
      have h := hq p (by simp)
      have hs := h.some (by rw [← h1]; exact List.getElem_mem hk)
      obtain ⟨ds, hds⟩ := Option.isSome_iff_exists.mp hs
      obtain ⟨hlt, hsh⟩ := h.levels ds hds
      obtain ⟨rest, hr⟩ := h.layers
      have hdc : defSum (p.1.layers.take k) = defSum (inner.take k) := by rw [hr, take_inner _ _ _ (by omega)]
      have hdc' : defSum (p.1.layers.take (k + 1)) = defSum (inner.take k) + 1 := by
        rw [hr, take_inner _ _ _ (by omega), defSum_take_succ _ _ hk, h1]; rfl
      have hv : (advance k p.1).validity bits = some (advance (k + 1) p.1, bits ++ (p.2.map fun d => decide (d ≤ defSum (inner.take k)))) := by
        simp only [Unraveler.validity, advance, hds]
        rw [seenValid_shown _ _ _ hlt, ← hsh]
        simp [hdc, hdc']
      rw [List.map_cons, validityLoop, hv]
      simp only
      rw [ih _ (fun x hx => hq x (by simp [hx]))]
      simp
  · have hf : (ps.all (id ∘ fun _ => isAllValid inner[k])) = true := by simp [h1, isAllValid]
    rw [hf]
    simp only [if_true]
    rw [if_neg (by rw [h1]; decide)]
    simp only [List.map_map, Option.some.injEq, Prod.mk.injEq, and_true]
    apply List.map_congr_left
    intro p hpm
    obtain ⟨rest, hr⟩ := (hp p hpm).layers
    have hdc : defSum (p.1.layers.take (k + 1)) = defSum (p.1.layers.take k) := by
      rw [hr, take_inner _ _ _ (by omega), take_inner _ _ _ (by omega), defSum_take_succ _ _ hk, h1]; rfl
    simp [Unraveler.skip, advance, hdc]

theorem mask_levels {V : Type} (g : Nat → Val V → Val V) (cmp : Nat) :
    ∀ (ds : List Nat) (xs : List (Val V)), ds.length = xs.length →
      List.zipWith (fun b v => if b then Val.valid v else Val.null) (ds.map fun d => decide (d ≤ cmp)) (List.zipWith g ds xs) =
        List.zipWith (fun d x => if d ≤ cmp then Val.valid (g d x) else Val.null) ds xs
  | [], _, _ => by simp
  | d :: ds, [], h => by simp at h
  | d :: ds, x :: xs, h => by
    simp only [List.map_cons, List.zipWith_cons_cons, mask_levels g cmp ds xs (by simpa using h), decide_eq_true_eq]

/-- The cells that a bitmap read from levels makes. -/
theorem mask_shown {V : Type} (inner : List Layer) (hi : ∀ l ∈ inner, isItem l) (k : Nat) (hk : k < inner.length)
    (ds : List Nat) (xs : List (Val V)) (hl : ds.length = xs.length) :
    mask (if inner[k] = .nullableItem then some (ds.map fun d => decide (d ≤ defSum (inner.take k))) else none)
      (List.zipWith (cell (inner.take k) 0) ds xs) = List.zipWith (cell (inner.take (k + 1)) 0) ds xs := by
  rw [← List.take_append_getElem hk]
  rcases hi _ (List.getElem_mem hk) with h1 | h1
  · rw [if_pos h1]
    simp only [mask]
    rw [mask_levels _ _ _ _ hl]
    congr 1
    funext d x
    rw [cell_snoc, h1]
    simp [cellStep]
  · rw [if_neg (by rw [h1]; decide)]
    simp only [mask, List.map_zipWith]
    congr 1
    funext d x
    rw [cell_snoc, h1]
    simp [cellStep]

theorem zipWith_second {A B : Type} : ∀ (ds : List A) (xs : List B), ds.length = xs.length → List.zipWith (fun _ x => x) ds xs = xs
  | [], [], _ => rfl
  | _ :: ds, x :: xs, h => by simp [zipWith_second ds xs (by simpa using h)]
  | [], _ :: _, h => by simp at h
  | _ :: _, [], h => by simp at h

/-- Reading the values and the structs right around them. -/
theorem decode_inner {V : Type} (inner : List Layer) (hi : ∀ l ∈ inner, isItem l) (ps : List (RepDefs × List Nat))
    (hne : ps ≠ []) (hp : ∀ p ∈ ps, PageIn inner p) (vals : List V) (hv : (ps.flatMap (·.2)).length = vals.length) :
    ∀ q, q < inner.length →
      ∃ arr, decode (List.replicate q .struct) (ps.map fun p => Unraveler.new p.1) vals =
          some (ps.map (fun p => advance (q + 1) p.1), arr) ∧
        arr.cells = List.zipWith (cell (inner.take (q + 1)) 0) (ps.flatMap (·.2)) (vals.map .item) ∧
        arr.len = vals.length ∧ arr.Ok (List.replicate q .struct) := by
  have hnew : (ps.map fun p => Unraveler.new p.1) = ps.map fun p => advance 0 p.1 := by
    apply List.map_congr_left; intro p _; simp [Unraveler.new, advance, defSum]
  have hb : ∀ (k : Nat) (hk : k < inner.length),
      BitsOk (if inner[k] = .nullableItem then
          some ((ps.flatMap (·.2)).map fun d => decide (d ≤ defSum (inner.take k))) else none) vals.length := by
    intro k hk bs hbs
    split at hbs
    · simp only [Option.some.injEq] at hbs; subst hbs; rw [List.length_map, hv]
    · simp at hbs
  have hball : ∀ (bits : Option (List Bool)) (n : Nat), BitsOk bits n → bits.all (fun b => b.length == n) = true := by
    intro bits n h; cases bits with
    | none => rfl
    | some b => simp [h b rfl]
  intro q
  induction q with
  | zero =>
    intro hk
    refine ⟨.prim vals _, ?_, ?_, rfl, hb 0 hk⟩
    · rw [List.replicate_zero, decode, hnew, unravelValidity_step inner hi ps hne hp 0 hk]
      simp only
      rw [if_pos (hball _ _ (hb 0 hk))]
    · rw [Arr.cells]
      have := mask_shown inner hi 0 hk (ps.flatMap (·.2)) (vals.map (Val.item (V := V))) (by rw [hv, List.length_map])
      rw [← this]
      congr 1
      rw [List.take_zero]
      exact (zipWith_second _ _ (by rw [hv, List.length_map])).symm
  | succ q ih =>
    intro hk
    obtain ⟨arr, h1, h2, h3, h4⟩ := ih (by omega)
    refine ⟨.struct arr _, ?_, ?_, h3, h4, by rw [h3]; exact hb (q + 1) hk⟩
    · rw [List.replicate_succ, decode, h1]
      simp only
      rw [unravelValidity_step inner hi ps hne hp (q + 1) hk]
      simp only
      rw [h3, if_pos (hball _ _ (hb (q + 1) hk))]
    · rw [Arr.cells, h2]
      exact mask_shown inner hi (q + 1) hk _ _ (by rw [hv, List.length_map])

/-! ### Columns without lists -/

theorem levelsToRep_items (inner : List Layer) (hi : ∀ l ∈ inner, isItem l) (rest : List Layer) (k : Nat) :
    levelsToRep (inner ++ rest) k = List.replicate (defSum inner) k ++ levelsToRep rest k := by
  induction inner with
  | nil => simp [defSum]
  | cons l inner ih =>
    have ih := ih (fun x hx => hi x (by simp [hx]))
    rcases hi l (by simp) with h | h <;> subst h
    · rw [List.cons_append, levelsToRep, ih, show defSum (Layer.nullableItem :: inner) = defSum inner + 1 by
        simp [defSum, Layer.defLevels, Nat.add_comm], List.replicate_succ, List.cons_append]
    · rw [List.cons_append, levelsToRep, ih]
      simp [defSum, Layer.defLevels]

theorem bitLayer_item (b : Option (List Bool)) : isItem (bitLayer b) := by
  cases b <;> simp [isItem, bitLayer]

theorem shown_flat (rd : RepDefs) (inner : List Layer) (hi : ∀ l ∈ inner, isItem l) (h : rd.layers = inner) (ds : List Nat)
    (hd : ∀ d ∈ ds, d ≤ defSum inner) :
    (∀ d ∈ ds, d < (0 :: levelsToRep rd.layers 0).length) ∧ ds = shown rd ds := by
  have ht : 0 :: levelsToRep rd.layers 0 = List.replicate (defSum inner + 1) 0 := by
    rw [h, ← List.append_nil inner, levelsToRep_items inner hi [] 0]
    simp [levelsToRep, List.replicate_succ]
  constructor
  · intro d hm; rw [ht]; have := hd d hm; simp; omega
  · symm
    unfold shown
    rw [List.filter_eq_self]
    intro d hm
    have := hd d hm
    rw [ht, List.getElem?_replicate, if_pos (by omega)]
    rfl

/-- What is read from the levels of bitmaps put together is what the arrays hold. -/
theorem flat_cells {V : Type} (q : Nat) (arrs : List (Arr V)) (hok : ∀ a ∈ arrs, a.Ok (List.replicate q .struct)) :
    arrs.flatMap Arr.cells =
      List.zipWith (cell ((pageBits (q + 1) arrs).map bitLayer) 0)
        (markAll (pageBits (q + 1) arrs) 1 (List.replicate (arrs.map Arr.len).sum 0)) ((arrs.flatMap Arr.leaves).map .item) := by
  have hbl : ∀ a ∈ arrs, a.bitmaps.length = q + 1 := fun a ha => bitmaps_length q a (hok a ha)
  have hll : ∀ a ∈ arrs, a.leaves.length = a.len := fun a ha => leaves_length q a (hok a ha)
  have hbo : ∀ a ∈ arrs, ∀ b ∈ a.bitmaps, BitsOk b a.len := fun a ha => bitmaps_ok q a (hok a ha)
  have h1 := readBits_page arrs (q + 1) (fun a ha => by rw [hbl a ha]; exact Nat.le_refl _) hll hbo
  have hlen : ((arrs.flatMap Arr.leaves).map (Val.item (V := V))).length = (arrs.map Arr.len).sum := by
    rw [List.length_map, List.length_flatMap]
    congr 1
    exact List.map_congr_left hll
  rw [readBits_levels _ _ _ hlen (fun b hb => flat_lens arrs (q + 1) b hb (fun a ha => ⟨by rw [hbl a ha]; exact Nat.le_refl _, hbo a ha⟩))] at h1
  rw [h1, List.flatMap_def, List.flatMap_def]
  congr 1
  apply List.map_congr_left
  intro a ha
  rw [← hbl a ha, List.take_length, cells_chain q a (hok a ha)]

end Verif.RepDef
