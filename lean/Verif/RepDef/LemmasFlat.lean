import Verif.RepDef.Spec
/-!
# Lemmas on levels: layers of bitmaps
-/
namespace Verif.RepDef
open Verif.Mini (Layer RepDefs)

theorem snoc_ind {A : Type} {P : List A → Prop} (hn : P []) (hs : ∀ l a, P l → P (l ++ [a])) : ∀ l, P l := by
  intro l
  rw [← l.reverse_reverse]
  induction l.reverse with
  | nil => exact hn
  | cons a t ih => rw [List.reverse_cons]; exact hs _ _ ih

/-- The cells under some bitmaps, the innermost first. -/
def readBits {V : Type} : List (Option (List Bool)) → List (Val V) → List (Val V)
  | [], vs => vs
  | b :: bs, vs => readBits bs (mask b vs)

theorem readBits_snoc {V : Type} (bs : List (Option (List Bool))) (b : Option (List Bool)) :
    ∀ vs : List (Val V), readBits (bs ++ [b]) vs = mask b (readBits bs vs) := by
  induction bs with
  | nil => intro vs; rfl
  | cons c bs ih => intro vs; exact ih _

/-- The leaves of an array. -/
def Arr.leaves {V : Type} : Arr V → List V
  | .prim vals _ => vals
  | .struct c _ => c.leaves
  | .list _ c _ => c.leaves
  | .fsl _ c _ => c.leaves

/-- The layer that a bitmap makes. -/
def bitLayer (b : Option (List Bool)) : Layer := if b.isSome then .nullableItem else .allValidItem

/-- The number of definition levels of some layers. -/
def defSum (ls : List Layer) : Nat := (ls.map Layer.defLevels).sum

/-- Definition levels after some bitmaps. -/
def markAll : List (Option (List Bool)) → Nat → List Nat → List Nat
  | [], _, ds => ds
  | none :: bs, l, ds => markAll bs l ds
  | some b :: bs, l, ds => markAll bs (l + 1) (markNulls l ds b)

theorem markAll_snoc (bs : List (Option (List Bool))) (b : Option (List Bool)) :
    ∀ l ds, markAll (bs ++ [b]) l ds = match b with
      | none => markAll bs l ds
      | some x => markNulls (l + defSum (bs.map bitLayer)) (markAll bs l ds) x := by
  induction bs with
  | nil => intro l ds; cases b <;> simp [markAll, defSum]
  | cons c bs ih =>
    intro l ds
    cases c with
    | none =>
      simp only [List.cons_append, markAll, ih]
      cases b <;> simp [defSum, bitLayer, Layer.defLevels]
    | some y =>
      simp only [List.cons_append, markAll, ih]
      cases b <;> simp [defSum, bitLayer, Layer.defLevels, Nat.add_assoc]

theorem markNulls_length (l : Nat) : ∀ (ds : List Nat) (vs : List Bool), (markNulls l ds vs).length = ds.length
  | [], [] => rfl
  | [], _ :: _ => rfl
  | _ :: _, [] => rfl
  | d :: ds, v :: vs => by simp [markNulls, markNulls_length l ds vs]

theorem markAll_length (bs : List (Option (List Bool))) : ∀ l ds, (markAll bs l ds).length = ds.length := by
  induction bs with
  | nil => intro l ds; rfl
  | cons b bs ih => intro l ds; cases b <;> simp [markAll, ih, markNulls_length]

theorem markNulls_le (l : Nat) : ∀ (ds : List Nat) (vs : List Bool), (∀ d ∈ ds, d ≤ l) → ∀ d ∈ markNulls l ds vs, d ≤ l
  | [], [], h => h
  | [], _ :: _, h => h
  | _ :: _, [], h => h
  | d :: ds, v :: vs, h => by
    intro x hx
    simp only [markNulls, List.mem_cons] at hx
    rcases hx with hx | hx
    · subst hx; split
      · exact h _ (by simp)
      · exact Nat.le_refl _
    · exact markNulls_le l ds vs (fun y hy => h y (by simp [hy])) x hx

theorem markAll_le (bs : List (Option (List Bool))) (n : Nat) :
    ∀ d ∈ markAll bs 1 (List.replicate n 0), d ≤ defSum (bs.map bitLayer) := by
  induction bs using snoc_ind with
  | hn => intro d hd; simp only [markAll] at hd; rw [List.eq_of_mem_replicate hd]; simp
  | hs bs b ih =>
    intro d hd
    rw [markAll_snoc] at hd
    cases b with
    | none =>
      simp only at hd
      have := ih d hd
      simpa [defSum, bitLayer, Layer.defLevels] using this
    | some x =>
      simp only at hd
      have := markNulls_le (1 + defSum (bs.map bitLayer)) _ x (fun y hy => by have := ih y hy; omega) d hd
      have h2 : defSum ((bs ++ [some x]).map bitLayer) = defSum (bs.map bitLayer) + 1 := by
        simp [defSum, bitLayer, Layer.defLevels]
      rw [h2]
      omega

/-! ### The meaning of a definition level -/

/-- The content of a cell whose definition level is `d`, seen through layers that start at level `cmp`. -/
def cellStep {V : Type} (l : Layer) (cmp d : Nat) (x : Val V) : Val V :=
  if l = .allValidItem then .valid x else if d ≤ cmp then .valid x else .null

def cell {V : Type} : List Layer → Nat → Nat → Val V → Val V
  | [], _, _, x => x
  | l :: ls, cmp, d, x => cell ls (cmp + l.defLevels) d (cellStep l cmp d x)

theorem cell_snoc {V : Type} (ls : List Layer) (l : Layer) :
    ∀ cmp d (x : Val V), cell (ls ++ [l]) cmp d x = cellStep l (cmp + defSum ls) d (cell ls cmp d x) := by
  induction ls with
  | nil => intro cmp d x; simp [cell, defSum]
  | cons k ls ih =>
    intro cmp d x
    simp only [List.cons_append, cell, ih]
    simp [defSum, Nat.add_assoc]

theorem mask_length {V : Type} (b : Option (List Bool)) (vs : List (Val V)) (h : BitsOk b vs.length) :
    (mask b vs).length = vs.length := by
  cases b with
  | none => simp [mask]
  | some x => simp [mask, h x rfl]

theorem readBits_length {V : Type} (bs : List (Option (List Bool))) :
    ∀ vs : List (Val V), (∀ b ∈ bs, BitsOk b vs.length) → (readBits bs vs).length = vs.length := by
  induction bs with
  | nil => intro vs _; rfl
  | cons b bs ih =>
    intro vs h
    have h1 := mask_length b vs (h b (by simp))
    rw [readBits, ih _ (fun c hc => by rw [h1]; exact h c (by simp [hc])), h1]

theorem zipWith_mark {V : Type} (g : Nat → Val V → Val V) (l : Nat) :
    ∀ (ds : List Nat) (vs : List Bool) (xs : List (Val V)), ds.length = vs.length → (∀ d ∈ ds, d < l) →
      List.zipWith (fun b v => if b then Val.valid v else Val.null) vs (List.zipWith g ds xs) =
        List.zipWith (fun d x => if d < l then Val.valid (g d x) else Val.null) (markNulls l ds vs) xs
  | [], [], _, _, _ => by simp [markNulls]
  | d :: ds, v :: vs, [], _, _ => by simp
  | d :: ds, v :: vs, x :: xs, hl, hd => by
    have ih := zipWith_mark g l ds vs xs (by simpa using hl) (fun y hy => hd y (by simp [hy]))
    simp only [List.zipWith_cons_cons, markNulls, ih]
    have h1 := hd d (by simp)
    cases v <;> simp [h1]
  | [], _ :: _, _, hl, _ => by simp at hl
  | _ :: _, [], _, hl, _ => by simp at hl

/-- The cells under some bitmaps are those that the definition levels tell. -/
theorem readBits_levels {V : Type} (n : Nat) (bs : List (Option (List Bool))) (xs : List (Val V)) (hx : xs.length = n)
    (h : ∀ b ∈ bs, BitsOk b n) :
    readBits bs xs = List.zipWith (cell (bs.map bitLayer) 0) (markAll bs 1 (List.replicate n 0)) xs := by
  induction bs using snoc_ind with
  | hn =>
    simp only [readBits, markAll, List.map_nil]
    subst hx
    induction xs with
    | nil => rfl
    | cons x xs ih =>
      rw [List.length_cons, List.replicate_succ, List.zipWith_cons_cons, ← ih (by simp)]; rfl
  | hs bs b ih =>
    rw [readBits_snoc, ih (fun c hc => h c (by simp [hc])), markAll_snoc]
    cases b with
    | none =>
      simp only [mask, List.map_append, List.map_cons, List.map_nil]
      rw [List.map_zipWith]
      congr 1
      funext d x
      rw [cell_snoc]
      simp [cellStep, bitLayer]
    | some y =>
      simp only [mask, List.map_append, List.map_cons, List.map_nil]
      have hy := h (some y) (by simp) y rfl
      rw [zipWith_mark (cell (bs.map bitLayer) 0) (1 + defSum (bs.map bitLayer)) _ y xs
        (by rw [markAll_length, List.length_replicate, hy])
        (fun d hd => by have := markAll_le bs n d hd; omega)]
      congr 1
      funext d x
      rw [cell_snoc]
      simp only [cellStep, bitLayer, Option.isSome_some, if_true, reduceCtorEq, if_false, Nat.zero_add]
      by_cases hc : d ≤ defSum (bs.map bitLayer)
      · rw [if_pos hc, if_pos (by show d < _; omega)]
      · rw [if_neg hc, if_neg (by show ¬ d < _; omega)]

/-! ### Collecting -/

theorem leaves_length {V : Type} (q : Nat) : ∀ a : Arr V, a.Ok (List.replicate q .struct) → a.leaves.length = a.len := by
  induction q with
  | zero => intro a h; cases a <;> simp_all [Arr.Ok, Arr.leaves, Arr.len]
  | succ q ih =>
    intro a h
    cases a <;> simp only [List.replicate_succ, Arr.Ok] at h
    rename_i c bits
    exact ih c h.1

theorem bitmaps_length {V : Type} (q : Nat) : ∀ a : Arr V, a.Ok (List.replicate q .struct) → a.bitmaps.length = q + 1 := by
  induction q with
  | zero => intro a h; cases a <;> simp_all [Arr.Ok, Arr.bitmaps]
  | succ q ih =>
    intro a h
    cases a <;> simp only [List.replicate_succ, Arr.Ok] at h
    rename_i c bits
    simp [Arr.bitmaps, ih c h.1]

theorem bitmaps_ok {V : Type} (q : Nat) :
    ∀ a : Arr V, a.Ok (List.replicate q .struct) → ∀ b ∈ a.bitmaps, BitsOk b a.len := by
  induction q with
  | zero => intro a h; cases a <;> simp_all [Arr.Ok, Arr.bitmaps, Arr.len]
  | succ q ih =>
    intro a h
    cases a <;> simp only [List.replicate_succ, Arr.Ok] at h
    rename_i c bits
    intro b hb
    simp only [Arr.bitmaps, List.mem_append, List.mem_singleton] at hb
    rcases hb with hb | hb
    · exact ih c h.1 b hb
    · subst hb; exact h.2

theorem cells_chain {V : Type} (q : Nat) :
    ∀ a : Arr V, a.Ok (List.replicate q .struct) → a.cells = readBits a.bitmaps (a.leaves.map .item) := by
  induction q with
  | zero => intro a h; cases a <;> simp_all [Arr.Ok, Arr.bitmaps, Arr.cells, Arr.leaves, readBits]
  | succ q ih =>
    intro a h
    cases a <;> simp only [List.replicate_succ, Arr.Ok] at h
    rename_i c bits
    simp only [Arr.cells, Arr.bitmaps, Arr.leaves, readBits_snoc]
    rw [ih c h.1]

theorem addBits_ok (b : Builder) (bits : Option (List Bool)) (n : Nat) (h : BitsOk bits n) (hf : b.fits n = true) :
    b.addBits bits n = some ⟨b.raws ++ [.validity bits n], some n⟩ := by
  cases bits with
  | none => simp [Builder.addBits, hf]
  | some bs => simp [Builder.addBits, h bs rfl, hf]

/-- What the encoders of structs and values collect. -/
theorem collect_chain {V : Type} (q : Nat) :
    ∀ (a : Arr V) (b : Builder), a.Ok (List.replicate q .struct) → b.fits a.len = true →
      collect (List.replicate q .struct) a b =
        some (⟨b.raws ++ a.bitmaps.reverse.map (Raw.validity · a.len), some a.len⟩, a.leaves) := by
  induction q with
  | zero =>
    intro a b h hf
    cases a <;> simp only [List.replicate_zero, Arr.Ok] at h
    rename_i vals bits
    simp only [List.replicate_zero, collect, Arr.bitmaps, Arr.leaves, Arr.len] at *
    rw [addBits_ok b bits _ h hf]
    simp
  | succ q ih =>
    intro a b h hf
    cases a <;> simp only [List.replicate_succ, Arr.Ok] at h
    rename_i c bits
    simp only [List.replicate_succ, collect]
    rw [addBits_ok b bits c.len h.2 hf]
    simp only
    rw [ih c _ h.1 (by simp [Builder.fits])]
    simp [Arr.bitmaps, Arr.leaves, Arr.len]

/-! ### Putting builders together -/

theorem mapM_some_iff {A B : Type} (f : A → Option B) :
    ∀ (l : List A) (out : List B), l.mapM f = some out ↔ l.map f = out.map some
  | [], out => by cases out <;> simp
  | a :: l, out => by
    rw [List.mapM_cons]
    cases hf : f a with
    | none => cases out <;> simp [hf]
    | some b =>
      cases hm : l.mapM f with
      | none =>
        cases out with
        | nil => simp
        | cons c out =>
          have := mapM_some_iff f l out
          rw [hm] at this
          simp only [Option.bind_eq_bind, Option.bind_some, Option.bind_none, reduceCtorEq, List.map_cons, hf, List.cons.injEq, false_iff,
            not_and]
          simp only [reduceCtorEq, false_iff] at this
          intro _; exact this
      | some bs =>
        have h1 := (mapM_some_iff f l bs).mp hm
        cases out with
        | nil => simp
        | cons c out =>
          have := mapM_some_iff f l out
          rw [hm] at this
          simp only [Option.bind_eq_bind, Option.bind_some, Option.pure_def, Option.some.injEq, List.map_cons, hf,
            List.cons.injEq]
          simp only [Option.some.injEq] at this
          exact and_congr Iff.rfl this

theorem mapM_map_some {A B : Type} (f : A → Option B) (g : A → B) (l : List A) (h : ∀ a ∈ l, f a = some (g a)) :
    l.mapM f = some (l.map g) := by
  rw [mapM_some_iff]
  simp only [List.map_map]
  exact List.map_congr_left h

/-- Bitmaps at one layer of some arrays, each with the number of cells, put together. -/
def joinBits (bs : List (Option (List Bool) × Nat)) : Option (List Bool) :=
  if bs.any (fun x => x.1.isSome) then some (bs.flatMap fun x => x.1.getD (List.replicate x.2 true)) else none

theorem concatLayers_validity (bs : List (Option (List Bool) × Nat)) :
    concatLayers (bs.map fun x => .validity x.1 x.2) = some (.validity (joinBits bs) (bs.map (·.2)).sum) := by
  cases bs with
  | nil => rfl
  | cons b bs =>
    have hall : ((b :: bs).map fun x => Raw.validity x.1 x.2).all Raw.isValidity = true := by
      rw [List.all_eq_true]; intro r hr
      obtain ⟨x, _, rfl⟩ := List.mem_map.mp hr; rfl
    rw [List.map_cons, concatLayers, ← List.map_cons (f := fun x : Option (List Bool) × Nat => Raw.validity x.1 x.2), if_pos hall]
    congr 2
    · unfold concatBits joinBits
      rw [List.any_map, List.flatMap_map]
      rfl
    · rw [List.map_map]; rfl

theorem mask_append {V : Type} (b c : Option (List Bool)) (vs ws : List (Val V)) (hb : BitsOk b vs.length) (hc : BitsOk c ws.length) :
    mask (joinBits [(b, vs.length), (c, ws.length)]) (vs ++ ws) = mask b vs ++ mask c ws := by
  have hm : ∀ us : List (Val V),
      List.zipWith (fun b v => if b then Val.valid v else Val.null) (List.replicate us.length true) us = us.map Val.valid := by
    intro us
    induction us with
    | nil => rfl
    | cons u us ih => rw [List.length_cons, List.replicate_succ]; simp [ih]
  cases b with
  | none =>
    cases c with
    | none => simp [joinBits, mask]
    | some y =>
      simp only [joinBits, mask, List.any_cons, Option.isSome_none, Option.isSome_some, List.any_nil, Bool.or_true, Bool.or_false,
        if_true, List.flatMap_cons, List.flatMap_nil, Option.getD_none, Option.getD_some, List.append_nil]
      rw [List.zipWith_append (by simp), hm]
  | some x =>
    have hx := hb x rfl
    cases c with
    | none =>
      simp only [joinBits, mask, List.any_cons, Option.isSome_none, Option.isSome_some, List.any_nil, Bool.true_or,
        if_true, List.flatMap_cons, List.flatMap_nil, Option.getD_none, Option.getD_some, List.append_nil]
      rw [List.zipWith_append hx, hm]
    | some y =>
      simp only [joinBits, mask, List.any_cons, Option.isSome_some, List.any_nil, Bool.true_or,
        if_true, List.flatMap_cons, List.flatMap_nil, Option.getD_some, List.append_nil]
      rw [List.zipWith_append hx]

theorem joinBits_ok (bs : List (Option (List Bool) × Nat)) (h : ∀ x ∈ bs, BitsOk x.1 x.2) :
    BitsOk (joinBits bs) (bs.map (·.2)).sum := by
  intro out hout
  unfold joinBits at hout
  split at hout
  · simp only [Option.some.injEq] at hout
    subst hout
    rw [List.length_flatMap]
    congr 1
    apply List.map_congr_left
    intro x hx
    cases hb : x.1 with
    | none => simp
    | some y => simp [h x hx y hb]
  · simp at hout

theorem joinBits_cons (x : Option (List Bool) × Nat) (bs : List (Option (List Bool) × Nat)) :
    joinBits (x :: bs) = joinBits [x, (joinBits bs, (bs.map (·.2)).sum)] := by
  have key : ∀ l : List (Option (List Bool) × Nat), l.any (fun x => x.1.isSome) = false →
      l.flatMap (fun x => x.1.getD (List.replicate x.2 true)) = List.replicate (l.map (·.2)).sum true := by
    intro l hl
    induction l with
    | nil => rfl
    | cons y l ih =>
      simp only [List.any_cons, Bool.or_eq_false_iff] at hl
      rw [List.flatMap_cons, ih hl.2, List.map_cons, List.sum_cons, ← List.replicate_append_replicate]
      cases hy : y.1 with
      | none => simp
      | some z => rw [hy] at hl; simp at hl
  cases hb : bs.any (fun x => x.1.isSome) with
  | false =>
    have h2 : joinBits bs = none := by simp [joinBits, hb]
    rw [h2]
    simp only [joinBits, List.any_cons, hb, Bool.or_false, Option.isSome_none, List.any_nil, List.flatMap_cons, List.flatMap_nil,
      key bs hb, Option.getD_none, List.append_nil]
  | true =>
    have h2 : joinBits bs = some (bs.flatMap fun x => x.1.getD (List.replicate x.2 true)) := by simp [joinBits, hb]
    rw [h2]
    simp only [joinBits, List.any_cons, hb, Bool.or_true, Option.isSome_some, List.any_nil, Bool.or_false, List.flatMap_cons, List.flatMap_nil,
      Option.getD_some, List.append_nil]

/-- The cells of some arrays, from the bitmaps put together. -/
theorem mask_join {V : Type} (bs : List (Option (List Bool) × List (Val V))) (h : ∀ x ∈ bs, BitsOk x.1 x.2.length) :
    mask (joinBits (bs.map fun x => (x.1, x.2.length))) (bs.flatMap (·.2)) = bs.flatMap fun x => mask x.1 x.2 := by
  induction bs with
  | nil => rfl
  | cons x bs ih =>
    have hl : ((bs.map fun x => (x.1, x.2.length)).map (·.2)).sum = (bs.flatMap (·.2)).length := by
      rw [List.length_flatMap, List.map_map]; rfl
    rw [List.map_cons, joinBits_cons, List.flatMap_cons, List.flatMap_cons, hl]
    rw [mask_append _ _ _ _ (h x (by simp)), ih (fun y hy => h y (by simp [hy]))]
    rw [← hl]
    apply joinBits_ok
    intro y hy
    obtain ⟨z, hz, rfl⟩ := List.mem_map.mp hy
    exact h z (by simp [hz])

end Verif.RepDef
