import Verif.Read.PropsParams
import Verif.RowIds.PropsSequence
import Verif.Deletion.Props

/-! # Lemmas about reading batches -/
namespace Verif.Read
open Verif
open Verif.Deletion (DV patchRange liveBelow countBelow)
open Verif.RowIds (Seq)
open Verif.RowIds.Seq (Params sliceIds)

/-- A cell of a column that is there or not. -/
def cell (wanted : Bool) (n : Nat) : Cell := if wanted then .val n else .absent

/-- Whether the deletion vector leaves row `o` in place. -/
def live (dv : Option DV) (o : Nat) : Bool :=
  match dv with
  | none => true
  | some d => !d.contains o

/-- The row at an offset with a row id. -/
def mkRow {α : Type} (file : Nat → α) (frag : Nat) (withId withAddr : Bool) (x : Nat × Nat) : Row α :=
  { data := file x.1, id := cell withId x.2, addr := cell withAddr (mkAddr frag x.1) }

/-- The row with its meta columns null. -/
def nullRow {α : Type} (r : Row α) : Row α := { r with id := r.id.nullify, addr := r.addr.nullify }

/-- What one batch, given by offsets and row ids, turns into. -/
def outBatch {α : Type} (c : Cfg) (file : Nat → α) (frag : Nat) (pb : List (Nat × Nat)) : List (Row α) :=
  if c.nulls then
    if pb.all (fun x => !live c.dv x.1) then []
    else pb.map (fun x => if live c.dv x.1 then mkRow file frag c.withId c.withAddr x
      else nullRow (mkRow file frag c.withId c.withAddr x))
  else (pb.filter (fun x => live c.dv x.1)).map (mkRow file frag c.withId c.withAddr)

theorem addColumns_eq {α : Type} (pb : List (Nat × Nat)) (file : Nat → α) (frag : Nat) (wi wa : Bool)
    (ids addrs : Option (List Nat))
    (hi : ids = if wi then some (pb.map (·.2)) else none)
    (ha : addrs = if wa then some (pb.map (fun x => mkAddr frag x.1)) else none) :
    addColumns (pb.map (fun x => file x.1)) ids addrs = some (pb.map (mkRow file frag wi wa)) := by
  subst hi ha
  unfold addColumns
  rw [if_pos (by cases wi <;> cases wa <;> simp)]
  congr 1
  apply List.ext_getElem
  · simp
  · intro i h1 h2
    have hi : i < pb.length := by simpa using h1
    simp only [List.getElem_map, List.getElem_zipIdx, mkRow, cell, Nat.zero_add, Row.mk.injEq, true_and]
    constructor
    · cases wi <;> simp [hi]
    · cases wa <;> simp [hi]

theorem realDv_pred (dv : Option DV) (frag : Nat) (offs : List Nat) (h : ∀ o ∈ offs, o < U32) :
    (realDv dv).bind (fun d => d.buildPredicate (offs.map (mkAddr frag))) =
      if (realDv dv).isSome then some (offs.map (live dv)) else none := by
  have key : ∀ s : List Nat, (offs.map (mkAddr frag)).map (fun id => !s.contains (id % U32)) =
      offs.map (fun o => !s.contains o) := by
    intro s
    rw [List.map_map]
    apply List.map_congr_left
    intro o ho
    have := h o ho
    simp only [Function.comp_apply, mkAddr]
    rw [show (frag * U32 + o) % U32 = o by omega]
  match dv with
  | none => rfl
  | some .none => rfl
  | some (.set s) => exact congrArg some (key s)
  | some (.bitmap s) => exact congrArg some (key s)

theorem live_of_not_real {dv : Option DV} (h : (realDv dv).isSome = false) (o : Nat) : live dv o = true := by
  match dv with
  | none => rfl
  | some .none => rfl
  | some (.set s) => cases h
  | some (.bitmap s) => cases h

theorem filterBatch_map {β α : Type} (l : List β) (g : β → Row α) (p : β → Bool) :
    filterBatch (l.map g) (l.map p) = (l.filter p).map g := by
  unfold filterBatch
  induction l with
  | nil => rfl
  | cons a l ih =>
    simp only [List.map_cons, List.zip_cons_cons, List.filter_cons]
    cases p a <;> simp [ih]

theorem deletionsAsNulls_map {β α : Type} (l : List β) (g : β → Row α) (p : β → Bool) :
    deletionsAsNulls (l.map g) (l.map p) =
      if l.all (fun x => !p x) then []
      else l.map (fun x => if p x then g x else nullRow (g x)) := by
  unfold deletionsAsNulls
  simp only [List.all_map, Function.comp_def]
  split
  · rfl
  · split
    · rename_i h
      apply List.map_congr_left
      intro a ha
      rw [List.all_eq_true] at h
      rw [h a ha]; rfl
    · rw [List.zip_map', List.map_map]; rfl

theorem applyMask_eq {α : Type} (c : Cfg) (file : Nat → α) (frag : Nat) (pb : List (Nat × Nat)) (addrs : List Nat)
    (h : ∀ x ∈ pb, x.1 < U32)
    (ha : (realDv c.dv).isSome = true → addrs = pb.map (fun x => mkAddr frag x.1)) :
    applyMask c addrs (pb.map (mkRow file frag c.withId c.withAddr)) = outBatch c file frag pb := by
  unfold applyMask outBatch
  cases hr : (realDv c.dv).isSome with
  | true =>
    rw [ha hr, show pb.map (fun x => mkAddr frag x.1) = (pb.map (·.1)).map (mkAddr frag) by
      rw [List.map_map]; rfl]
    rw [realDv_pred c.dv frag (pb.map (·.1)) (by
      intro o ho; rw [List.mem_map] at ho; obtain ⟨x, hx, rfl⟩ := ho; exact h x hx)]
    rw [if_pos hr]
    simp only [List.map_map, Function.comp_def]
    cases c.nulls with
    | true => simp only [if_true]; exact deletionsAsNulls_map pb _ _
    | false => exact filterBatch_map pb _ _
  | false =>
    have hn : realDv c.dv = none := by cases hd : realDv c.dv <;> simp_all
    rw [hn]
    simp only [Option.bind_none]
    have hl := fun o => live_of_not_real hr o
    cases c.nulls with
    | true =>
      simp only [if_true, hl]
      cases pb with
      | nil => rfl
      | cons a l => simp
    | false => simp only [hl, Bool.false_eq_true, if_false]; rw [List.filter_eq_self.mpr (by simp)]

/-- One batch, given the slices of the offsets and of the row ids. -/
theorem applyBatch_eq {α : Type} (c : Cfg) (file : Nat → α) (frag off : Nat) (pb : List (Nat × Nat))
    (h : ∀ x ∈ pb, x.1 < U32)
    (hs : (slice c.params off pb.length).bind toOffsets = some (pb.map (·.1)))
    (hi : c.withId = true → match c.seq with
      | some q => sliceIds q off pb.length = .ok (pb.map (·.2))
      | none => ∀ x ∈ pb, x.2 = mkAddr frag x.1) :
    applyBatch c frag off (pb.map (fun x => file x.1)) = some (outBatch c file frag pb) := by
  have haddr : (pb.map (·.1)).map (mkAddr frag) = pb.map (fun x => mkAddr frag x.1) := by
    rw [List.map_map]; rfl
  unfold applyBatch
  simp only [List.length_map]
  by_cases hf : (c.withAddr || (c.withId && c.seq.isNone) || (realDv c.dv).isSome) = true
  · have h1 : batchAddrs c frag off pb.length = some (some (pb.map (fun x => mkAddr frag x.1))) := by
      unfold batchAddrs; rw [if_pos hf, hs]; simp only [haddr]
    rw [h1]
    have h2 : batchIds c off pb.length (some (pb.map (fun x => mkAddr frag x.1))) =
        some (if c.withId then some (pb.map (·.2)) else none) := by
      unfold batchIds
      cases hw : c.withId with
      | false => simp
      | true =>
        have := hi hw
        simp only [if_true]
        split
        · rename_i q hq; rw [hq] at this; simp only at this; rw [this]
        · rename_i hq; rw [hq] at this; simp only at this
          congr 2
          apply List.map_congr_left
          intro x hx; exact (this x hx).symm
    simp only [h2]
    rw [addColumns_eq pb file frag c.withId c.withAddr _ _ rfl rfl]
    simp only [Option.getD_some]
    rw [applyMask_eq c file frag pb _ h (fun _ => rfl)]
  · have hf' : c.withAddr = false ∧ (c.withId = true → c.seq.isNone = false) ∧ (realDv c.dv).isSome = false := by
      simp only [Bool.or_eq_true, Bool.and_eq_true, not_or, not_and, Bool.not_eq_true] at hf
      exact ⟨hf.1.1, hf.1.2, hf.2⟩
    have h1 : batchAddrs c frag off pb.length = some none := by
      unfold batchAddrs; rw [if_neg hf]
    rw [h1]
    have h2 : batchIds c off pb.length none = some (if c.withId then some (pb.map (·.2)) else none) := by
      unfold batchIds
      cases hw : c.withId with
      | false => simp
      | true =>
        have := hi hw
        simp only [if_true]
        split
        · rename_i q hq; rw [hq] at this; simp only at this; rw [this]
        · rename_i hq; have := hf'.2.1 hw; rw [hq] at this; cases this
    simp only [h2]
    rw [addColumns_eq pb file frag c.withId c.withAddr _ _ rfl (by simp [hf'.1])]
    simp only
    rw [applyMask_eq c file frag pb _ h (fun hh => absurd hh (by simp [hf'.2.2]))]

/-- Batches of images come from batches of the originals. -/
theorem unflatten_map {β α : Type} (g : β → α) (bs : List (List α)) (l : List β) (h : bs.flatten = l.map g) :
    ∃ pbs : List (List β), pbs.flatten = l ∧ bs = pbs.map (fun b => b.map g) := by
  induction bs generalizing l with
  | nil =>
    refine ⟨[], ?_, rfl⟩
    cases l with
    | nil => rfl
    | cons a l => cases h
  | cons b bs ih =>
    rw [List.flatten_cons] at h
    obtain ⟨l1, l2, rfl, h1, h2⟩ := List.map_eq_append_iff.mp h.symm
    obtain ⟨pbs, e1, e2⟩ := ih l2 h2.symm
    exact ⟨l1 :: pbs, by rw [List.flatten_cons, e1], by rw [List.map_cons, ← e2, h1]⟩

/-- All batches: `pairs` lists offset and row id of every row read. -/
theorem wrap_eq {α : Type} (c : Cfg) (file : Nat → α) (frag : Nat) (pairs : List (Nat × Nat))
    (h : ∀ x ∈ pairs, x.1 < U32)
    (hs : ∀ off n, off + n ≤ pairs.length →
      (slice c.params off n).bind toOffsets = some (((pairs.map (·.1)).drop off).take n))
    (hi : c.withId = true → match c.seq with
      | some q => ∀ off n, off + n ≤ pairs.length → sliceIds q off n = .ok (((pairs.map (·.2)).drop off).take n)
      | none => ∀ x ∈ pairs, x.2 = mkAddr frag x.1)
    (pbs : List (List (Nat × Nat))) (off : Nat) (hf : pbs.flatten = pairs.drop off) (ho : off ≤ pairs.length) :
    wrap c frag off (pbs.map (fun b => b.map (fun x => file x.1))) = some (pbs.map (outBatch c file frag)) := by
  induction pbs generalizing off with
  | nil => rfl
  | cons b pbs ih =>
    rw [List.flatten_cons] at hf
    have hlen : b.length + pbs.flatten.length = pairs.length - off := by
      rw [← List.length_append, hf, List.length_drop]
    have hb : b = (pairs.drop off).take b.length := by rw [← hf]; simp
    have hrest : pbs.flatten = pairs.drop (off + b.length) := by
      rw [← List.drop_drop, ← hf]; simp
    have hmem : ∀ x ∈ b, x ∈ pairs := by
      intro x hx
      apply List.mem_of_mem_drop (i := off)
      rw [← hf]; exact List.mem_append_left _ hx
    have h1 : applyBatch c frag off (b.map (fun x => file x.1)) = some (outBatch c file frag b) := by
      apply applyBatch_eq
      · intro x hx; exact h x (hmem x hx)
      · rw [hs off b.length (by omega), ← List.map_drop, ← List.map_take, ← hb]
      · intro hw
        have := hi hw
        split
        · rename_i q hq
          rw [hq] at this
          simp only at this
          rw [this off b.length (by omega), ← List.map_drop, ← List.map_take, ← hb]
        · rename_i hq
          rw [hq] at this
          exact fun x hx => this x (hmem x hx)
    simp only [List.map_cons, wrap, h1, List.length_map]
    rw [ih (off + b.length) hrest (by omega)]

end Verif.Read
