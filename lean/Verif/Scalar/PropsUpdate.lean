import Verif.Scalar.PropsRemap

/-! C60: scalar indices stay exact after rows are added to them. -/
namespace Verif.Scalar
open Verif
open Verif.RowSet (TreeMap)

/-- The whole property for the btree index: train, then add rows. -/
def C60_btree_update_statement : Prop :=
  ∀ (V : Type) [LinOrd V] [DecidableEq V] (rows new : List (Row V)) (q : Query V) (bs : Nat) (tie : Nat → Nat → Bool)
    (batches : List (Row V) → List (List (Row V))), 0 < bs → (∀ l, (batches l).flatten = l) → InOrder rows →
    InOrder new → Ids64 rows → Ids64 new → ¬ Crossed q → NullFree q → q ≠ .range .unb .unb →
    ∃ m, searchBTree (updateBTree bs tie batches (trainBTree bs [rows]) new) q = some m ∧ Exact (rows ++ new) q m

/-- Pages of four rows, one NULL.  The first page is read twice, the second time after the last page; the stream is
not ordered any more and the row with value 5 is not found. -/
theorem C60_btree_update_violated : ¬ C60_btree_update_statement := by
  intro h
  let rows : List (Row Nat) := [(none, 0), (some 1, 1), (some 2, 2), (some 3, 3), (some 5, 5)]
  let new : List (Row Nat) := [(some 4, 14), (some 6, 16)]
  have hr : Ids64 rows := by unfold Ids64; decide +kernel
  have hn : Ids64 new := by unfold Ids64; decide +kernel
  obtain ⟨m, hm, hx⟩ := h Nat rows new (.equals (some 5)) 4 (fun _ _ => true) (fun l => [l]) (by decide)
    (fun l => by simp) (by unfold InOrder; decide +kernel) (by unfold InOrder; decide +kernel) hr hn (fun h => h) trivial
    (by simp)
  have hs : searchBTree (updateBTree 4 (fun _ _ => true) (fun l => [l]) (trainBTree 4 [rows]) new) (.equals (some 5)) =
      some [] := by decide +kernel
  rw [hs] at hm
  cases hm
  have := (hx 5 (by decide)).2 ⟨some 5, by simp [rows], by simp [Sat]⟩
  revert this
  decide +kernel

/-- The update reads the old pages with the default page size, not with the one that is stored in the index.  In an
index with pages of four rows, updated with a default of two, the last rows are lost (no NULL needed). -/
theorem C60_page_size_violated :
    ∃ (rows new : List (Row Nat)) (m : TreeMap), InOrder rows ∧ InOrder new ∧ (∀ r ∈ rows ++ new, r.1 ≠ none) ∧
      (some 5, 5) ∈ rows ∧
      searchBTree (updateBTree 2 (fun _ _ => true) (fun l => [l]) (trainBTree 4 [rows]) new) (.equals (some 5)) = some m ∧
      RowSet.contains m 5 = false := by
  refine ⟨[(some 1, 1), (some 2, 2), (some 3, 3), (some 4, 4), (some 5, 5)], [(some 6, 6)], [], ?_, ?_, ?_, ?_, ?_, ?_⟩
  · unfold InOrder; decide +kernel
  · unfold InOrder; decide +kernel
  · decide
  · decide
  · decide +kernel
  · decide

/-- **C60**, bitmap index: rows added to an index that holds `rows` are found with the others. -/
theorem C60_bitmap_update {V : Type} [LinOrd V] [DecidableEq V] (rows new : List (Row V)) (hr : Ids64 rows)
    (hn : Ids64 new) (s1 s2 : List (Option V × TreeMap) → List (Option V × TreeMap)) (h1 : ∀ l, (s1 l).Perm l)
    (h2 : ∀ l, (s2 l).Perm l) (q : Query V) (hq : ¬ Crossed q) (hq' : ¬ Pinched q) :
    ∃ m, bitmapSearch (updateBitmap s2 (trainBitmap s1 rows) new) q = some m ∧ Exact (rows ++ new) q m :=
  bitmap_exact (bExact_load (stExact_train (stExact_of_bitmap
    (bExact_load (stExact_train stExact_nil rows hr) s1 h1)) new hn) s2 h2) q ⟨hq, hq'⟩

/-- **C60**, label-list index. -/
theorem C60_labels_update {V : Type} [LinOrd V] [DecidableEq V] (rows new : List (LRow V))
    (hr : ∀ r ∈ rows ++ new, r.2 < 2 ^ 64) (hd : ((rows ++ new).map (·.2)).Nodup)
    (s1 s2 : List (Option V × TreeMap) → List (Option V × TreeMap)) (h1 : ∀ l, (s1 l).Perm l)
    (h2 : ∀ l, (s2 l).Perm l) (q : LQuery V) (hq : labelsOf q ≠ []) :
    ∃ m, searchLabels (updateBitmap s2 (trainBitmap s1 (unnest rows)) (unnest new)) q = some m ∧
      ∀ i, i < 2 ^ 64 → (RowSet.contains m i = true ↔ ∃ v, (v, i) ∈ rows ++ new ∧ LSat q v) := by
  have hu : unnest (rows ++ new) = unnest rows ++ unnest new := by
    unfold unnest; rw [List.flatMap_append]
  refine labels_exact ?_ hd q hq
  rw [hu]
  exact bExact_load (stExact_train (stExact_of_bitmap
    (bExact_load (stExact_train stExact_nil _ (ids_unnest rows (fun r h => hr r (List.mem_append_left _ h)))) s1 h1)) _
    (ids_unnest new (fun r h => hr r (List.mem_append_right _ h)))) s2 h2

/-- **C60**, btree index: exact if the rows that are already in the index have no NULL or fit on one page (missing: NULLs
among more rows than that). -/
theorem C60_btree_update_partial {V : Type} [LinOrd V] [DecidableEq V] (bs : Nat) (hb : 0 < bs)
    (stream : List (List (Row V))) (hord : InOrder stream.flatten) (hr : Ids64 stream.flatten) (new : List (Row V))
    (hnew : InOrder new) (hn : Ids64 new) (tie : Nat → Nat → Bool) (batches : List (Row V) → List (List (Row V)))
    (hbat : ∀ l, (batches l).flatten = l)
    (hc : stream.flatten.length ≤ bs ∨ ∀ r ∈ stream.flatten, r.1 ≠ none)
    (q : Query V) (h1 : q ≠ .range .unb .unb) (h2 : ¬ Crossed q) (hnf : NullFree q) :
    ∃ m, searchBTree (updateBTree bs tie batches (trainBTree bs stream) new) q = some m ∧
      Exact (stream.flatten ++ new) q m := by
  have hform := form_train bs hb stream hord
  have hfile : (trainBTree bs stream).file = stream.flatten := (chunk_pages stream bs hb).1
  obtain ⟨pages', hf, hp⟩ := form_update hform hb (by rw [hfile]; exact hc) tie batches hbat new hnew
  rw [hfile] at hp
  refine btree_exact (covers_perm (covers_form hf) hp) ?_ q (Or.inl hnf) h1 h2
  intro r h
  rcases List.mem_append.1 h with h | h
  · exact hr r h
  · exact hn r h

/-! ### Histories -/

/-- What can happen to an index: rows are added, or a compaction changes ids. -/
inductive Op (V : Type) where
  | add (new : List (Row V))
  | move (f : Mapping)

/-- The rows of the table after the operation. -/
def Op.rows {V : Type} (rows : List (Row V)) : Op V → List (Row V)
  | .add new => rows ++ new
  | .move f => rows.map (fun r => (r.1, match f r.2 with | some (some n) => n | _ => r.2))

/-- The operation adds rows in order and without NULL, or moves rows without removing any. -/
def Op.Mild {V : Type} [LinOrd V] (rows : List (Row V)) : Op V → Prop
  | .add new => InOrder new ∧ Ids64 new ∧ ∀ r ∈ new, r.1 ≠ none
  | .move f => Map64 f ∧ ∀ r ∈ rows, f r.2 ≠ some none

/-- All operations of a history are mild when they happen. -/
def AllMild {V : Type} [LinOrd V] : List (Row V) → List (Op V) → Prop
  | _, [] => True
  | rows, o :: os => o.Mild rows ∧ AllMild (o.rows rows) os

/-- The rows after a history. -/
def finalRows {V : Type} (rows : List (Row V)) (os : List (Op V)) : List (Row V) := os.foldl Op.rows rows

/-- The btree index after the operation. -/
def Op.btree {V : Type} [LinOrd V] [DecidableEq V] (tie : Nat → Nat → Bool)
    (batches : List (Row V) → List (List (Row V))) (b : BTree V) : Op V → BTree V
  | .add new => updateBTree b.bs tie batches b new
  | .move f => remapBTree f b

theorem op_rows_move {V : Type} (f : Mapping) (rows : List (Row V)) (hf : ∀ r ∈ rows, f r.2 ≠ some none) :
    rows.map (newRow f) = (Op.move f).rows rows := by
  unfold Op.rows
  apply List.map_congr_left
  intro r hr
  unfold newRow
  cases h : f r.2 with
  | none => rfl
  | some o =>
    cases o with
    | none => exact absurd h (hf r hr)
    | some n => rfl

/-- **C60/C38**, histories: from a trained btree index without NULLs, after any number of additions and compactions that
remove no row, every query is answered exactly. -/
theorem C60_btree_history_partial {V : Type} [LinOrd V] [DecidableEq V] (bs : Nat) (hb : 0 < bs)
    (stream : List (List (Row V))) (hord : InOrder stream.flatten) (hr : Ids64 stream.flatten)
    (hnn : ∀ r ∈ stream.flatten, r.1 ≠ none) (tie : Nat → Nat → Bool) (batches : List (Row V) → List (List (Row V)))
    (hbat : ∀ l, (batches l).flatten = l) (os : List (Op V)) (hos : AllMild stream.flatten os)
    (q : Query V) (h1 : q ≠ .range .unb .unb) (h2 : ¬ Crossed q) :
    ∃ m, searchBTree (os.foldl (Op.btree tie batches) (trainBTree bs stream)) q = some m ∧
      Exact (finalRows stream.flatten os) q m := by
  have hfile : (trainBTree bs stream).file = stream.flatten := (chunk_pages stream bs hb).1
  have key : ∀ (os : List (Op V)) (b : BTree V) (rows : List (Row V)), (∃ pages, Form b pages) → 0 < b.bs →
      b.file.Perm rows → Ids64 rows → (∀ r ∈ rows, r.1 ≠ none) → AllMild rows os →
      ∃ m, searchBTree (os.foldl (Op.btree tie batches) b) q = some m ∧ Exact (finalRows rows os) q m := by
    intro os
    induction os with
    | nil =>
      rintro b rows ⟨pages, hform⟩ _ hp hids hnull _
      exact btree_exact (covers_perm (covers_form hform) hp) hids q (Or.inr hnull) h1 h2
    | cons o os ih =>
      rintro b rows ⟨pages, hform⟩ hbs hp hids hnull ⟨ho, hos⟩
      have hnull' : ∀ r ∈ b.file, r.1 ≠ none := fun r h => hnull r (hp.mem_iff.1 h)
      rw [List.foldl_cons]
      show ∃ m, _ ∧ Exact (finalRows (o.rows rows) os) q m
      cases o with
      | add new =>
        obtain ⟨pages', hf, hp'⟩ := form_update hform hbs (Or.inr hnull') tie batches hbat new ho.1
        refine ih _ (rows ++ new) ⟨pages', hf⟩ hbs (hp'.trans (hp.append_right new)) ?_ ?_ hos
        · intro r h
          rcases List.mem_append.1 h with h | h
          · exact hids r h
          · exact ho.2.1 r h
        · intro r h
          rcases List.mem_append.1 h with h | h
          · exact hnull r h
          · exact ho.2.2 r h
      | move f =>
        have hf' : ∀ r ∈ b.file, f r.2 ≠ some none := fun r h => ho.2 r (hp.mem_iff.1 h)
        have hf := form_remap hform f hnull' hf'
        have hfl : (remapBTree f b).file = b.file.map (newRow f) := by
          rw [hf.file, hform.file, List.map_flatten]
        have hrows := op_rows_move f rows ho.2
        refine ih _ _ ⟨_, hf⟩ hbs ?_ ?_ ?_ hos
        · rw [← hrows]
          show (remapBTree f b).file.Perm _
          rw [hfl]
          exact hp.map _
        · intro r h
          simp only [Op.rows, List.mem_map] at h
          obtain ⟨r0, h3, rfl⟩ := h
          cases h4 : f r0.2 with
          | none => exact hids r0 h3
          | some o =>
            cases o with
            | none => exact absurd h4 (ho.2 r0 h3)
            | some n => exact ho.1 _ _ h4
        · intro r h
          simp only [Op.rows, List.mem_map] at h
          obtain ⟨r0, h3, rfl⟩ := h
          exact hnull r0 h3
  exact key os _ _ ⟨_, form_train bs hb stream hord⟩ hb (by rw [hfile]) hr hnn hos

/-- The rows of the table after the operation, where a compaction may also remove rows. -/
def Op.live {V : Type} (rows : List (Row V)) : Op V → List (Row V)
  | .add new => rows ++ new
  | .move f => rows.filterMap (fun r => match f r.2 with
    | some (some n) => some (r.1, n)
    | some none => none
    | none => some r)

/-- The operation adds any rows, or it moves or removes every row while there is no NULL. -/
def Op.Total {V : Type} (rows : List (Row V)) : Op V → Prop
  | .add new => ∀ r ∈ new, r.2 < 2 ^ 64
  | .move f => Map64 f ∧ ∀ r ∈ rows, f r.2 ≠ none ∧ r.1 ≠ none

/-- All operations of a history are total when they happen. -/
def AllTotal {V : Type} : List (Row V) → List (Op V) → Prop
  | _, [] => True
  | rows, o :: os => o.Total rows ∧ AllTotal (o.live rows) os

/-- The bitmap index after the operation; `none`: it panicked. -/
def Op.bitmap {V : Type} [LinOrd V] [DecidableEq V] (shuffle : List (Option V × TreeMap) → List (Option V × TreeMap))
    (b : Option (Bitmap V)) : Op V → Option (Bitmap V)
  | .add new => b.map (fun b => updateBitmap shuffle b new)
  | .move f => b.bind (remapBitmap shuffle f)

/-- **C60/C38**, histories of a bitmap index: after any number of additions and of compactions that touch every row (while
there is no NULL), every query is answered exactly. -/
theorem C60_bitmap_history_partial {V : Type} [LinOrd V] [DecidableEq V] (rows : List (Row V)) (hr : Ids64 rows)
    (shuffle : List (Option V × TreeMap) → List (Option V × TreeMap)) (hs : ∀ l, (shuffle l).Perm l)
    (os : List (Op V)) (hos : AllTotal rows os) (q : Query V) (hq : ¬ Crossed q) (hq' : ¬ Pinched q) :
    ∃ b m, os.foldl (Op.bitmap shuffle) (some (trainBitmap shuffle rows)) = some b ∧ bitmapSearch b q = some m ∧
      Exact (os.foldl Op.live rows) q m := by
  have key : ∀ (os : List (Op V)) (b : Bitmap V) (rows : List (Row V)), BExact b rows → Ids64 rows →
      AllTotal rows os → ∃ b' m, os.foldl (Op.bitmap shuffle) (some b) = some b' ∧ bitmapSearch b' q = some m ∧
        Exact (os.foldl Op.live rows) q m := by
    intro os
    induction os with
    | nil =>
      intro b rows hb _ _
      obtain ⟨m, hm, hx⟩ := bitmap_exact hb q ⟨hq, hq'⟩
      exact ⟨b, m, rfl, hm, hx⟩
    | cons o os ih =>
      rintro b rows hb hids ⟨ho, hos⟩
      rw [List.foldl_cons, List.foldl_cons]
      cases o with
      | add new =>
        refine ih _ _ (bExact_load (stExact_train (stExact_of_bitmap hb) new ho) shuffle hs) ?_ hos
        intro r h
        rcases List.mem_append.1 h with h | h
        · exact hids r h
        · exact ho r h
      | move f =>
        obtain ⟨b', h1, h2⟩ := remapBitmap_spec f ho.1 hids hb shuffle hs
        have hrows : ∀ l : List (Row V), (∀ r ∈ l, f r.2 ≠ none ∧ r.1 ≠ none) →
            l.filterMap (bitmapRemapRow f) = (Op.move f).live l := by
          intro l hl
          unfold Op.live
          induction l with
          | nil => rfl
          | cons r l ihl =>
            have hr0 : bitmapRemapRow f r = (match f r.2 with
                | some (some n) => some (r.1, n)
                | some none => none
                | none => some r) := by
              obtain ⟨v, i⟩ := r
              obtain ⟨h3, h4⟩ := hl _ (List.mem_cons_self ..)
              simp only at h3 h4
              unfold bitmapRemapRow
              cases v with
              | none => exact absurd rfl h4
              | some x =>
                simp only
                cases hf : f i with
                | none => exact absurd hf h3
                | some o => cases o <;> rfl
            have ht := ihl (fun r' h => hl r' (List.mem_cons_of_mem _ h))
            simp only at ht
            simp only
            rw [List.filterMap_cons, List.filterMap_cons, hr0, ht]
        rw [hrows rows ho.2] at h2
        have hstep : Op.bitmap shuffle (some b) (.move f) = some b' := h1
        rw [hstep]
        refine ih _ _ h2 ?_ hos
        rintro ⟨v, j⟩ h
        rw [← hrows rows ho.2, List.mem_filterMap] at h
        obtain ⟨⟨w, i⟩, _, h4⟩ := h
        unfold bitmapRemapRow at h4
        split at h4
        · rename_i x n hw hn
          simp only [Option.some.injEq, Prod.mk.injEq] at h4
          obtain ⟨_, rfl⟩ := h4
          exact ho.1 _ _ hn
        · cases h4
  exact key os _ rows (bExact_load (stExact_train stExact_nil rows hr) shuffle hs) hr hos

/-! ### Concrete cases -/

/-- Rows without NULL on pages of two. -/
def exOld : List (Row Nat) := [(some 1, 0), (some 4, 1), (some 4, 2), (some 7, 3)]
/-- Rows to add. -/
def exNew : List (Row Nat) := [(some 2, 10), (some 4, 11), (some 9, 12)]
/-- A history of four operations. -/
def exOps : List (Op Nat) := [.add exNew, .move exMove, .add [(some 0, 20)], .move (fun i => if i < 1000 then some (some (i + 100)) else none)]

example : InOrder exOld ∧ InOrder exNew := by unfold InOrder exOld exNew; decide +kernel
example : ∀ r ∈ exOld, r.1 ≠ none := by decide +kernel
example : searchBTree (updateBTree 2 (fun _ _ => true) (fun l => [l]) (trainBTree 2 [exOld]) exNew) (.equals (some 4)) =
    some (RowSet.extendIds [] [1, 2, 11]) := by decide +kernel
example : searchBTree (exOps.foldl (Op.btree (fun _ _ => true) (fun l => [l])) (trainBTree 2 [exOld]))
    (.range (.incl 0) (.incl 2)) = some (RowSet.extendIds [] [100, 110, 120]) := by decide +kernel
example : AllMild exOld exOps := by
  refine ⟨⟨by unfold InOrder exNew; decide +kernel, by unfold Ids64; decide +kernel, by decide +kernel⟩, ⟨?_, by decide +kernel⟩,
    ⟨by simp [InOrder], by unfold Ids64; decide +kernel, by decide +kernel⟩, ⟨?_, by decide +kernel⟩, trivial⟩
  · intro i n h
    unfold exMove at h
    split at h
    · simp at h; omega
    · cases h
  · intro i n h
    simp only at h
    split at h
    · simp at h; omega
    · cases h
/-- A history with a removed row and, at the end, a NULL. -/
def exOps2 : List (Op Nat) :=
  [.add exNew, .move (fun i => if i = 11 then some none else some (some (i % 1000))), .add [(none, 20)]]

example : AllTotal exOld exOps2 := by
  refine ⟨by unfold Op.Total; decide +kernel, ⟨?_, by decide +kernel⟩, by unfold Op.Total; decide +kernel, trivial⟩
  intro i n h
  simp only at h
  split at h
  · simp at h
  · simp at h; omega
example : (exOps2.foldl (Op.bitmap id) (some (trainBitmap id exOld))).bind (fun b => bitmapSearch b (.isIn [none, some 4])) =
    some (RowSet.extendIds [] [1, 2, 20]) := by decide +kernel

end Verif.Scalar
