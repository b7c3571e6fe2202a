import Verif.Merge.Model
import Verif.Update.PropsUpdate

/-!
# Lemmas for merge insert
-/
namespace Verif.Merge
open Verif
open Verif.Read (Frag Row Opts Cell scanV2 allRows Splits)
open Verif.Update (idValue applyDeletions newFrags commitUpdate Table selAddrs)

variable {V : Type}

/-! ## Lists -/

theorem flatMap_append_perm {β γ : Type} (f g : β → List γ) (l : List β) :
    (l.flatMap (fun x => f x ++ g x)).Perm (l.flatMap f ++ l.flatMap g) := by
  induction l with
  | nil => exact List.Perm.refl _
  | cons a l ih =>
    simp only [List.flatMap_cons]
    have h1 : (f a ++ g a ++ l.flatMap (fun x => f x ++ g x)).Perm (f a ++ g a ++ (l.flatMap f ++ l.flatMap g)) :=
      List.Perm.append_left _ ih
    refine h1.trans ?_
    rw [List.append_assoc, List.append_assoc]
    apply List.Perm.append_left
    rw [← List.append_assoc, ← List.append_assoc]
    exact List.Perm.append_right _ List.perm_append_comm

theorem flatMap_swap {β γ δ : Type} (g : β → γ → List δ) (l : List β) (m : List γ) :
    (l.flatMap (fun a => m.flatMap (fun b => g a b))).Perm (m.flatMap (fun b => l.flatMap (fun a => g a b))) := by
  induction l with
  | nil => simp
  | cons a l ih =>
    simp only [List.flatMap_cons]
    exact (List.Perm.append_left _ ih).trans (flatMap_append_perm _ _ m).symm

theorem filter_eq_flatMap {β : Type} (p : β → Bool) (l : List β) :
    l.filter p = l.flatMap (fun x => if p x then [x] else []) := by
  induction l with
  | nil => rfl
  | cons a l ih =>
    simp only [List.filter_cons, List.flatMap_cons, ih]
    cases p a <;> simp

theorem map_filter_eq_flatMap {β γ : Type} (p : β → Bool) (k : β → γ) (l : List β) :
    (l.filter p).map k = l.flatMap (fun x => if p x then [k x] else []) := by
  induction l with
  | nil => rfl
  | cons a l ih =>
    simp only [List.filter_cons, List.flatMap_cons, ← ih]
    cases p a <;> simp

/-! ## The merger, batch by batch -/

/-- Which joined rows are updates, inserts, deletes. -/
def updSel (p : Params V) (j : JRow V) : Bool :=
  inBoth p.on.length j && match p.matched with
    | .doNothing => false
    | .updateAll => true
    | .updateIf c => c j.left j.right == some true

def insSel (p : Params V) (j : JRow V) : Bool := leftOnly p.on.length j && p.insert

def delSel (p : Params V) (j : JRow V) : Bool :=
  rightOnly p.on.length j && match p.bySource with
    | .keep => false
    | .delete => true
    | .deleteIf c => c j.right == some true

theorem matchedRows_eq (p : Params V) (b : List (JRow V)) : matchedRows p b = b.filter (updSel p) := by
  unfold matchedRows updSel
  cases p.matched with
  | doNothing => simp
  | updateAll => simp
  | updateIf c => simp only [List.filter_filter, Bool.and_comm]

theorem insertedRows_eq (p : Params V) (b : List (JRow V)) : insertedRows p b = b.filter (insSel p) := by
  unfold insertedRows insSel
  cases p.insert <;> simp

theorem deletedRows_eq (p : Params V) (b : List (JRow V)) : deletedRows p b = b.filter (delSel p) := by
  unfold deletedRows delSel
  cases p.bySource with
  | keep => simp
  | delete => simp
  | deleteIf c => simp only [List.filter_filter, Bool.and_comm]

theorem foldl_exec (p : Params V) (bs : List (List (JRow V))) (acc : Acc V) :
    (bs.foldl (execBatch p) acc).written.Perm
      (acc.written ++ ((bs.flatten.filter (updSel p)).map (·.left) ++ (bs.flatten.filter (insSel p)).map (·.left))) ∧
    (∀ a, a ∈ (bs.foldl (execBatch p) acc).removed ↔ a ∈ acc.removed ∨
      a ∈ idsOf (bs.flatten.filter (updSel p)) ∨ a ∈ idsOf (bs.flatten.filter (delSel p))) ∧
    (bs.foldl (execBatch p) acc).stats =
      { inserted := acc.stats.inserted + (bs.flatten.filter (insSel p)).length
        updated := acc.stats.updated + (bs.flatten.filter (updSel p)).length
        deleted := acc.stats.deleted + (bs.flatten.filter (delSel p)).length } := by
  induction bs generalizing acc with
  | nil => simp [idsOf]
  | cons b bs ih =>
    obtain ⟨h1, h2, h3⟩ := ih (execBatch p acc b)
    simp only [List.foldl_cons, List.flatten_cons, List.filter_append, List.map_append, List.length_append]
    refine ⟨?_, ?_, ?_⟩
    · refine h1.trans ?_
      simp only [execBatch, matchedRows_eq, insertedRows_eq, List.append_assoc]
      apply List.Perm.append_left
      apply List.Perm.append_left
      generalize (b.filter (insSel p)).map (·.left) = x
      generalize (bs.flatten.filter (updSel p)).map (·.left) = y
      generalize (bs.flatten.filter (insSel p)).map (·.left) = z
      rw [← List.append_assoc, ← List.append_assoc]
      exact List.Perm.append_right _ List.perm_append_comm
    · intro a
      rw [h2]
      simp only [execBatch, matchedRows_eq, deletedRows_eq, List.mem_append, idsOf, List.map_append]
      constructor
      · rintro ((h | h | h) | h | h)
        · exact Or.inl h
        · exact Or.inr (Or.inl (Or.inl h))
        · exact Or.inr (Or.inr (Or.inl h))
        · exact Or.inr (Or.inl (Or.inr h))
        · exact Or.inr (Or.inr (Or.inr h))
      · rintro (h | (h | h) | (h | h))
        · exact Or.inl (Or.inl h)
        · exact Or.inl (Or.inr (Or.inl h))
        · exact Or.inr (Or.inl h)
        · exact Or.inl (Or.inr (Or.inr h))
        · exact Or.inr (Or.inr h)
    · rw [h3]
      simp only [execBatch, matchedRows_eq, insertedRows_eq, deletedRows_eq]
      congr 1 <;> omega

/-! ## The join, selected -/

theorem notAllNull_nulls (k w : Nat) : notAllNull k (nulls V w) = false := by
  unfold notAllNull nulls
  rw [List.take_replicate, List.any_replicate]
  simp

/-- What the options say about a pair and about a target row. -/
def updates (p : Params V) (s t : Tuple V) : Bool :=
  match p.matched with
  | .doNothing => false
  | .updateAll => true
  | .updateIf c => decide (c s t = some true)

def deletes (p : Params V) (t : Tuple V) : Bool :=
  match p.bySource with
  | .keep => false
  | .delete => true
  | .deleteIf c => decide (c t = some true)

theorem updSel_pair (p : Params V) (s t : Tuple V) (i : Option Nat) (hs : notAllNull p.on.length s = true)
    (ht : notAllNull p.on.length t = true) : updSel p ⟨s, t, i⟩ = updates p s t := by
  unfold updSel updates inBoth
  simp only [hs, ht]
  cases p.matched <;> simp
  rename_i c
  rw [Bool.eq_iff_iff]; simp

theorem delSel_right (p : Params V) (w : Nat) (t : Tuple V) (i : Option Nat)
    (ht : notAllNull p.on.length t = true) : delSel p ⟨nulls V w, t, i⟩ = deletes p t := by
  unfold delSel deletes rightOnly
  simp only [notAllNull_nulls, ht]
  cases p.bySource <;> simp
  rename_i c
  rw [Bool.eq_iff_iff]; simp

variable [DecidableEq V]

theorem fullJoin_upd (p : Params V) (nullEq : Bool) (w : Nat) (src : List (Tuple V)) (tgt : List (Row (Tuple V)))
    (hs : ∀ s ∈ src, notAllNull p.on.length s = true) (ht : ∀ t ∈ tgt, notAllNull p.on.length t.data = true) :
    (fullJoin nullEq p.on w src tgt).filter (updSel p) =
      src.flatMap (fun s => (tgt.filter (fun t => joins nullEq p.on s t.data && updates p s t.data)).map
        (fun t => ⟨s, t.data, some (idValue t.id)⟩)) := by
  unfold fullJoin
  rw [List.filter_append, List.filter_append]
  have e2 : ((src.filter (fun s => !tgt.any (fun t => joins nullEq p.on s t.data))).map
      (fun s => (⟨s, nulls V w, none⟩ : JRow V))).filter (updSel p) = [] := by
    rw [List.filter_eq_nil_iff]
    intro j hj
    obtain ⟨s, _, e⟩ := List.mem_map.mp hj
    subst e
    simp [updSel, inBoth, notAllNull_nulls]
  have e3 : ((tgt.filter (fun t => !src.any (fun s => joins nullEq p.on s t.data))).map
      (fun t => (⟨nulls V w, t.data, some (idValue t.id)⟩ : JRow V))).filter (updSel p) = [] := by
    rw [List.filter_eq_nil_iff]
    intro j hj
    obtain ⟨s, _, e⟩ := List.mem_map.mp hj
    subst e
    simp [updSel, inBoth, notAllNull_nulls]
  rw [e2, e3, List.append_nil, List.append_nil, List.filter_flatMap]
  have : ∀ l : List (Tuple V), (∀ s ∈ l, notAllNull p.on.length s = true) →
      l.flatMap (fun s => ((tgt.filter (fun t => joins nullEq p.on s t.data)).map
        (fun t => (⟨s, t.data, some (idValue t.id)⟩ : JRow V))).filter (updSel p)) =
      l.flatMap (fun s => (tgt.filter (fun t => joins nullEq p.on s t.data && updates p s t.data)).map
        (fun t => ⟨s, t.data, some (idValue t.id)⟩)) := by
    intro l
    induction l with
    | nil => intro _; rfl
    | cons s l ih =>
      intro hl
      rw [List.flatMap_cons, List.flatMap_cons, ih (fun s h => hl s (List.mem_cons_of_mem _ h))]
      congr 1
      rw [List.filter_map, List.filter_filter]
      congr 1
      apply List.filter_congr
      intro t hmt
      show (updSel p ⟨s, t.data, _⟩ && _) = _
      rw [updSel_pair p s t.data _ (hl s List.mem_cons_self) (ht t hmt), Bool.and_comm]
  exact this src hs

theorem fullJoin_ins (p : Params V) (nullEq : Bool) (w : Nat) (src : List (Tuple V)) (tgt : List (Row (Tuple V)))
    (hs : ∀ s ∈ src, notAllNull p.on.length s = true) (ht : ∀ t ∈ tgt, notAllNull p.on.length t.data = true) :
    ((fullJoin nullEq p.on w src tgt).filter (insSel p)).map (·.left) =
      if p.insert then src.filter (fun s => !tgt.any (fun t => joins nullEq p.on s t.data)) else [] := by
  unfold fullJoin
  rw [List.filter_append, List.filter_append]
  have e1 : (src.flatMap (fun s => (tgt.filter (fun t => joins nullEq p.on s t.data)).map
      (fun t => (⟨s, t.data, some (idValue t.id)⟩ : JRow V)))).filter (insSel p) = [] := by
    rw [List.filter_eq_nil_iff]
    intro j hj
    obtain ⟨s, _, hj⟩ := List.mem_flatMap.mp hj
    obtain ⟨t, hmt, e⟩ := List.mem_map.mp hj
    subst e
    simp [insSel, leftOnly, ht t (List.mem_filter.mp hmt).1]
  have e3 : ((tgt.filter (fun t => !src.any (fun s => joins nullEq p.on s t.data))).map
      (fun t => (⟨nulls V w, t.data, some (idValue t.id)⟩ : JRow V))).filter (insSel p) = [] := by
    rw [List.filter_eq_nil_iff]
    intro j hj
    obtain ⟨s, _, e⟩ := List.mem_map.mp hj
    subst e
    simp [insSel, leftOnly, notAllNull_nulls]
  rw [e1, e3, List.nil_append, List.append_nil]
  cases hi : p.insert with
  | false =>
    have : ((src.filter (fun s => !tgt.any (fun t => joins nullEq p.on s t.data))).map
        (fun s => (⟨s, nulls V w, none⟩ : JRow V))).filter (insSel p) = [] := by
      rw [List.filter_eq_nil_iff]
      intro j _
      simp [insSel, hi]
    rw [this]; rfl
  | true =>
    rw [List.filter_eq_self.mpr]
    · rw [List.map_map]
      show List.map (fun s => s) _ = _
      rw [List.map_id', if_pos rfl]
    · intro j hj
      obtain ⟨s, hms, e⟩ := List.mem_map.mp hj
      subst e
      simp [insSel, leftOnly, notAllNull_nulls, hi, hs s (List.mem_filter.mp hms).1]

theorem fullJoin_del (p : Params V) (nullEq : Bool) (w : Nat) (src : List (Tuple V)) (tgt : List (Row (Tuple V)))
    (hs : ∀ s ∈ src, notAllNull p.on.length s = true) (ht : ∀ t ∈ tgt, notAllNull p.on.length t.data = true) :
    (fullJoin nullEq p.on w src tgt).filter (delSel p) =
      (tgt.filter (fun t => !src.any (fun s => joins nullEq p.on s t.data) && deletes p t.data)).map
        (fun t => ⟨nulls V w, t.data, some (idValue t.id)⟩) := by
  unfold fullJoin
  rw [List.filter_append, List.filter_append]
  have e1 : (src.flatMap (fun s => (tgt.filter (fun t => joins nullEq p.on s t.data)).map
      (fun t => (⟨s, t.data, some (idValue t.id)⟩ : JRow V)))).filter (delSel p) = [] := by
    rw [List.filter_eq_nil_iff]
    intro j hj
    obtain ⟨s, hms, hj⟩ := List.mem_flatMap.mp hj
    obtain ⟨t, _, e⟩ := List.mem_map.mp hj
    subst e
    simp [delSel, rightOnly, hs s hms]
  have e2 : ((src.filter (fun s => !tgt.any (fun t => joins nullEq p.on s t.data))).map
      (fun s => (⟨s, nulls V w, none⟩ : JRow V))).filter (delSel p) = [] := by
    rw [List.filter_eq_nil_iff]
    intro j hj
    obtain ⟨s, _, e⟩ := List.mem_map.mp hj
    subst e
    simp [delSel, rightOnly, notAllNull_nulls]
  rw [e1, e2, List.nil_append, List.nil_append, List.filter_map, List.filter_filter]
  congr 1
  apply List.filter_congr
  intro t hmt
  show (delSel p ⟨nulls V w, t.data, _⟩ && _) = _
  rw [delSel_right p w t.data _ (ht t hmt), Bool.and_comm]

end Verif.Merge
