import Verif.Iscan.Model

/-! Row sets as the indices and the deletion mask make them: every row is listed once. -/
namespace Verif.Iscan
open Verif
open Verif.RowSet (TreeMap Mask contains)
open Verif.Scalar (Plain)

/-- Strictly ordered, only listed rows, each listed once and in order. -/
def Tidy (m : TreeMap) : Prop :=
  SMap.Sorted m ∧ ∀ e ∈ m, e.1 < 2 ^ 32 ∧ ∃ s : Bm, e.2 = .part s ∧ s.Sorted ∧ ∀ o ∈ s, o < 2 ^ 32

theorem Tidy.plain {m : TreeMap} (h : Tidy m) : Plain m :=
  ⟨h.1, fun e he => by obtain ⟨a, s, b, _, c⟩ := h.2 e he; exact ⟨a, s, b, c⟩⟩

theorem tidy_nil : Tidy [] := ⟨SMap.sorted_nil, by simp⟩

theorem tidy_put {m : TreeMap} (h : Tidy m) (k : Nat) (hk : k < 2 ^ 32) (s : Bm) (ht : s.Sorted)
    (hs : ∀ o ∈ s, o < 2 ^ 32) : Tidy (SMap.insert k (.part s) m) := by
  refine ⟨SMap.sorted_insert _ _ _ h.1, ?_⟩
  intro e he
  rcases Scalar.smap_mem_insert he with rfl | he
  · exact ⟨hk, s, rfl, ht, hs⟩
  · exact h.2 e he

theorem tidy_get {m : TreeMap} (h : Tidy m) {k : Nat} {s : RowSet.Sel} (hg : SMap.get k m = some s) :
    k < 2 ^ 32 ∧ ∃ b : Bm, s = .part b ∧ b.Sorted ∧ ∀ o ∈ b, o < 2 ^ 32 := h.2 _ (SMap.get_some_mem hg)

theorem tidy_sub {m m' : TreeMap} (h : Tidy m) (hs : SMap.Sorted m') (hm : ∀ e ∈ m', e ∈ m) : Tidy m' :=
  ⟨hs, fun e he => h.2 e (hm e he)⟩

theorem tidy_erase {m : TreeMap} (h : Tidy m) (k : Nat) : Tidy (SMap.erase k m) :=
  tidy_sub h (SMap.sorted_erase _ _ h.1) (fun _ he => (List.mem_filter.mp he).1)

theorem tidy_retainFragments {m : TreeMap} (h : Tidy m) (l : List Nat) : Tidy (RowSet.retainFragments m l) :=
  tidy_sub h (SMap.sorted_retain _ _ h.1) (fun _ he => (List.mem_filter.mp he).1)

theorem tidy_insert {m : TreeMap} (h : Tidy m) (v : Nat) : Tidy (RowSet.insert m v) := by
  have h1 := RowSet.fragmentId_lt v
  have h2 := RowSet.rowOffset_lt v
  unfold RowSet.insert
  split
  · apply tidy_put h _ h1 _ (Bm.sorted_insert _ _ Bm.sorted_nil)
    intro o ho
    simp [Bm.insert] at ho
    omega
  · exact h
  · rename_i s hs
    obtain ⟨_, b, e, hb, hb'⟩ := tidy_get h hs
    cases e
    apply tidy_put h _ h1 _ (Bm.sorted_insert _ _ hb)
    intro o ho
    rw [Bm.mem_insert] at ho
    rcases ho with rfl | ho
    · exact h2
    · exact hb' o ho

theorem tidy_remove {m : TreeMap} (h : Tidy m) (v : Nat) : Tidy (RowSet.remove m v) := by
  unfold RowSet.remove
  split
  · exact h
  · rename_i hs
    obtain ⟨_, b, e, _⟩ := tidy_get h hs
    cases e
  · rename_i s hs
    obtain ⟨h1, b, e, hb, hb'⟩ := tidy_get h hs
    cases e
    simp only
    split
    · exact tidy_erase h _
    · apply tidy_put h _ h1 _ (Bm.sorted_remove _ _ hb)
      intro o ho
      rw [Bm.mem_remove] at ho
      exact hb' o ho.1

theorem tidy_rangeLoop (n : Nat) {m : TreeMap} (h : Tidy m) (a b c d : Nat) (ha : a + n ≤ 2 ^ 32) (hd : d < 2 ^ 32) :
    Tidy (RowSet.insertRangeLoop n m a b c d) := by
  induction n generalizing m a b with
  | zero => exact h
  | succ n ih =>
    unfold RowSet.insertRangeLoop
    apply ih _ _ _ (by omega)
    have hx : (if a = c then d else 4294967296 - 1) < 2 ^ 32 := by
      split
      · exact hd
      · decide
    unfold RowSet.insertRangeBody
    split
    · apply tidy_put h _ (by omega) _ (Bm.sorted_union _ _ Bm.sorted_nil)
      intro o ho
      simp only [Bm.mem_union, List.not_mem_nil, false_or, Bm.mem_range] at ho
      omega
    · exact h
    · rename_i s hs
      obtain ⟨h1, b, e, hb, hb'⟩ := tidy_get h hs
      cases e
      apply tidy_put h _ h1 _ (Bm.sorted_union _ _ hb)
      intro o ho
      simp only [Bm.mem_union, Bm.mem_range] at ho
      rcases ho with ho | ho
      · exact hb' o ho
      · omega

theorem tidy_insertRange {m m' : TreeMap} (h : Tidy m) (lo hi : RowSet.Bound)
    (e : RowSet.insertRange m lo hi = some m') : Tidy m' := by
  unfold RowSet.insertRange at e
  simp only at e
  split at e
  · cases e
  · cases e
    have h1 := RowSet.fragmentId_lt (RowSet.lowBound lo)
    have h2 := RowSet.fragmentId_lt (RowSet.highBound hi)
    have h3 := RowSet.rowOffset_lt (RowSet.highBound hi)
    have h4 : 4294967296 = 2 ^ 32 := by decide
    apply tidy_rangeLoop _ h _ _ _ _ (by omega) (by omega)

theorem tidy_foldl {α : Type} (f : TreeMap → α → TreeMap) (hf : ∀ m a, Tidy m → Tidy (f m a)) (l : List α)
    (m : TreeMap) (h : Tidy m) : Tidy (l.foldl f m) := by
  induction l generalizing m with
  | nil => exact h
  | cons a l ih => exact ih _ (hf m a h)

theorem tidy_addSeg {m m' : TreeMap} (h : Tidy m) (sg : RowIds.Seg) (e : RowIds.Seq.addSeg m sg = some m') :
    Tidy m' := by
  cases sg with
  | range s t => exact tidy_insertRange h _ _ e
  | holes s t hs =>
    simp only [RowIds.Seq.addSeg] at e
    cases hr : RowSet.insertRange m (.incl s) (.excl t) with
    | none => rw [hr] at e; cases e
    | some m1 =>
      rw [hr] at e
      cases e
      exact tidy_foldl _ (fun m a h => tidy_remove h a) _ _ (tidy_insertRange h _ _ hr)
  | bitmap s t b =>
    simp only [RowIds.Seq.addSeg] at e
    cases hr : RowSet.insertRange m (.incl s) (.excl t) with
    | none => rw [hr] at e; cases e
    | some m1 =>
      rw [hr] at e
      cases e
      apply tidy_foldl _ _ _ _ (tidy_insertRange h _ _ hr)
      intro m a h
      split
      · exact h
      · exact tidy_remove h a
  | sorted a => cases e; exact tidy_foldl _ (fun m a h => tidy_insert h a) _ _ h
  | array a => cases e; exact tidy_foldl _ (fun m a h => tidy_insert h a) _ _ h

theorem tidy_toTreeMap {q : RowIds.Seq} {m : TreeMap} (e : RowIds.Seq.toTreeMap q = some m) : Tidy m := by
  have key : ∀ (q : RowIds.Seq) (a : Option TreeMap), (∀ x, a = some x → Tidy x) → ∀ m,
      q.foldl (fun m sg => m.bind (fun m => RowIds.Seq.addSeg m sg)) a = some m → Tidy m := by
    intro q
    induction q with
    | nil => intro a ha m hm; exact ha m hm
    | cons sg q ih =>
      intro a ha m hm
      refine ih _ ?_ m hm
      intro x hx
      cases a with
      | none => cases hx
      | some y => exact tidy_addSeg (ha y rfl) sg hx
  exact key q (some []) (fun x hx => by cases hx; exact tidy_nil) m e

theorem tidy_or {m r : TreeMap} (h : Tidy m) (hr : Tidy r) : Tidy (RowSet.or m r) := by
  unfold RowSet.or
  replace hr := hr.2
  induction r generalizing m with
  | nil => exact h
  | cons e r ih =>
    refine ih ?_ (fun e he => hr e (List.mem_cons_of_mem _ he))
    obtain ⟨h1, s, h2, h3, h4⟩ := hr e (List.mem_cons_self ..)
    unfold RowSet.orStep
    rw [h2]
    cases hg : SMap.get e.1 m with
    | none => exact tidy_put h _ h1 _ h3 h4
    | some l =>
      obtain ⟨_, b, rfl, hb, hb'⟩ := tidy_get h hg
      apply tidy_put h _ h1 _ (Bm.sorted_union _ _ hb)
      intro o ho
      rw [Bm.mem_union] at ho
      rcases ho with ho | ho
      · exact hb' o ho
      · exact h4 o ho

theorem tidy_and {m r : TreeMap} (h : Tidy m) (hr : Tidy r) : Tidy (RowSet.and m r) := by
  refine ⟨RowSet.sorted_and m r h.1, ?_⟩
  intro e he
  unfold RowSet.and at he
  simp only [SMap.retain, SMap.mapVals] at he
  rw [List.mem_filter, List.mem_map] at he
  obtain ⟨⟨x, hx, rfl⟩, _⟩ := he
  rw [List.mem_filter] at hx
  obtain ⟨h1, s, h2, h3, h4⟩ := h.2 x hx.1
  refine ⟨h1, ?_⟩
  show ∃ b, RowSet.andSel r x.1 x.2 = _ ∧ _
  rw [h2]
  unfold RowSet.andSel
  cases hg : SMap.get x.1 r with
  | none => exact ⟨s, rfl, h3, h4⟩
  | some t =>
    obtain ⟨_, b, rfl, hb⟩ := tidy_get hr hg
    refine ⟨Bm.inter s b, rfl, Bm.sorted_inter _ _ h3, ?_⟩
    intro o ho
    rw [Bm.mem_inter] at ho
    exact h4 o ho.1

/-- Listing a tidy set lists each member once. -/
theorem rowIds_tidy {m : TreeMap} (h : Tidy m) :
    ∃ ids, RowSet.rowIds m = some ids ∧ RowSet.len m = some ids.length ∧ ids.Nodup ∧ (∀ v ∈ ids, v < 2 ^ 64) ∧
      ∀ v, v < 2 ^ 64 → (v ∈ ids ↔ contains m v = true) := by
  obtain ⟨ids, h1, h2, h3⟩ := Scalar.rowIds_plain h.plain
  obtain ⟨h4, h5⟩ := RowSet.C02_len m h.1 (by
    intro e he
    obtain ⟨a, s, b, c, d⟩ := h.2 e he
    refine ⟨a, ?_⟩
    intro s' hs'
    rw [b] at hs'; cases hs'
    exact ⟨c, d⟩)
  refine ⟨ids, h1, by rw [h4, h1]; rfl, ?_, h2, h3⟩
  exact (h5 ids h1).imp (fun h => Nat.ne_of_lt h)

theorem contains_retain {m : TreeMap} (h : SMap.Sorted m) (l : List Nat) (v : Nat) :
    contains (RowSet.retainFragments m l) v = true ↔ contains m v = true ∧ RowSet.fragmentId v ∈ l := by
  rw [RowSet.contains_eq, RowSet.contains_eq, RowSet.memAt_retainFragments m h]

end Verif.Iscan
