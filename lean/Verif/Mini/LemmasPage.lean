import Verif.Mini.LemmasIndex
import Verif.Mini.LemmasBytes
/-!
# Mini-block pages: writing and reading a page
-/
namespace Verif.Mini

variable {V : Type}

def lvBytes (b : Bool) (f : Slot V → Nat) (s : List (Slot V)) : List Nat := if b then packLevels (s.map f) else []

theorem logsOk_of (chunks : List Chunk) (ns : List Nat) (hl : chunks.length = ns.length)
    (h : ∀ k (hk : k < chunks.length), k + 1 < chunks.length →
      0 < (chunks[k]).logNumValues ∧ 2 ^ (chunks[k]).logNumValues = ns.getD k 0) : LogsOk chunks ns := by
  induction chunks generalizing ns with
  | nil =>
    have : ns = [] := List.length_eq_zero_iff.mp hl.symm
    subst this; trivial
  | cons c cs ih =>
    cases ns with
    | nil => simp at hl
    | cons n ns =>
      cases cs with
      | nil =>
        cases ns with
        | nil => trivial
        | cons n' ns => simp at hl
      | cons c' cs =>
        cases ns with
        | nil => simp at hl
        | cons n' ns =>
          have h0 := h 0 (by simp) (by simp)
          refine ⟨h0.1, h0.2, ih (n' :: ns) (by simpa using hl) ?_⟩
          intro k hk hk1
          have := h (k + 1) (by simpa using hk) (by simpa using hk1)
          simpa using this

theorem compressLevels_out (r : Rows V) (hok : ∀ t ∈ r.rows.flatten, SlotOk r t) (b : Bool) (f : Slot V → Nat)
    (total m : Nat) (chunks : List Chunk) (ns : List Nat) (hl : LogsOk chunks ns) (hlen : chunks.length = ns.length)
    (hs : ns.sum = nv r.rows.flatten) (out : List (List Nat)) (idx : List (Nat × Nat))
    (h : compressLevels r.repDefs (opt b f r.rows.flatten) total chunks m = some (out, idx)) :
    out = (cutAt ns r.rows.flatten).map (lvBytes b f) := by
  cases b with
  | false =>
    simp only [opt, compressLevels, Bool.false_eq_true, if_false, Option.some.injEq, Prod.mk.injEq] at h
    rw [← h.1]
    have : (fun s => lvBytes false f s) = fun (_ : List (Slot V)) => ([] : List Nat) := by
      funext s; simp [lvBytes]
    have e : lvBytes false f = fun (_ : List (Slot V)) => ([] : List Nat) := this
    rw [e, List.map_const', List.map_const', cutAt_length, hlen]
  | true =>
    simp only [opt, compressLevels, if_true] at h
    split at h
    · exact absurd h (by simp)
    · rename_i out' idx' hloop
      simp only [Option.some.injEq, Prod.mk.injEq] at h
      have := levelsLoop_out r hok f total m chunks ns 0 0 [] out' idx' hl (by simpa using hs) (by omega) hloop
      rw [← h.1, this, List.drop_zero, List.map_map]
      rfl

theorem compressLevels_idx (r : Rows V) (hok : ∀ t ∈ r.rows.flatten, SlotOk r t)
    (total m : Nat) (hm : 0 < m) (chunks : List Chunk) (ns : List Nat) (hl : LogsOk chunks ns) (hne : chunks ≠ [])
    (hs : ns.sum = nv r.rows.flatten) (out : List (List Nat)) (idx : List (Nat × Nat))
    (h : compressLevels r.repDefs (some (r.rows.flatten.map Slot.rep)) total chunks m = some (out, idx)) :
    ∃ s ss, cutAt ns r.rows.flatten = s :: ss ∧ idx = idxOf m (s :: ss) ∧ ∀ t ∈ ss, t ≠ [] := by
  simp only [compressLevels] at h
  split at h
  · exact absurd h (by simp)
  · rename_i out' idx' hloop
    simp only [Option.some.injEq, Prod.mk.injEq] at h
    obtain ⟨s, ss, idx0, e1, e2, e3, e4⟩ :=
      levelsLoop_idx r hok total m hm chunks ns 0 0 [] out' idx' hl (by simpa using hs) (by omega) hne hloop
    refine ⟨s, ss, by simpa using e1, ?_, e4⟩
    simp only [fixPrev, Option.some.injEq] at e2
    rw [← h.2, e3, ← e2]
    simp

theorem NE_cut (chunks : List Chunk) : ∀ (ns : List Nat) (l : List (Slot V)), LogsOk chunks ns → ns.sum = nv l →
    NE (cutAt ns l) := by
  induction chunks with
  | nil =>
    intro ns l hl _
    cases ns with
    | nil => trivial
    | cons n ns => exact absurd hl (by simp [LogsOk])
  | cons c cs ih =>
    intro ns l hl hs
    cases ns with
    | nil => exact absurd hl (by cases cs <;> simp [LogsOk])
    | cons n ns =>
      cases cs with
      | nil =>
        cases ns with
        | nil => trivial
        | cons n' ns => exact absurd hl (by simp [LogsOk])
      | cons c' cs =>
        cases ns with
        | nil => exact absurd hl (by simp [LogsOk])
        | cons n' ns =>
          obtain ⟨l1, l2, l3⟩ := hl
          rw [List.sum_cons] at hs
          have hn : n ≤ nv l := by omega
          have hn0 : 0 < n := by rw [← l2]; exact Nat.two_pow_pos _
          have h1 := ih (n' :: ns) (l.drop (pos n l)) l3 (by rw [nv_drop_pos n l hn]; omega)
          rw [cutAt]
          have hne : l.take (pos n l) ≠ [] := by
            intro hc
            have := congrArg List.length hc
            have hp := pos_pos n l hn hn0
            have hl := pos_le n l
            rw [List.length_take, List.length_nil] at this
            omega
          cases hc : cutAt (n' :: ns) (l.drop (pos n l)) with
          | nil =>
            have := cutAt_length (n' :: ns) (l.drop (pos n l))
            rw [hc] at this
            simp at this
          | cons t ts => rw [hc] at h1; exact ⟨hne, h1⟩

theorem nv_flatten (S : List (List (Slot V))) : nv S.flatten = (S.map nv).sum := by
  induction S with
  | nil => rfl
  | cons s ss ih => rw [List.flatten_cons, nv_append, List.map_cons, List.sum_cons, ih]

theorem valuesBefore_eq (chunks : List Chunk) : ∀ (ns : List Nat), LogsOk chunks ns → ∀ k, k < chunks.length →
    valuesBefore chunks k = (ns.take k).sum := by
  induction chunks with
  | nil => intro ns _ k hk; simp at hk
  | cons c cs ih =>
    intro ns hl k hk
    cases k with
    | zero => simp [valuesBefore]
    | succ k =>
      cases ns with
      | nil => exact absurd hl (by cases cs <;> simp [LogsOk])
      | cons n ns =>
        cases cs with
        | nil => simp at hk
        | cons c' cs =>
          cases ns with
          | nil => exact absurd hl (by simp [LogsOk])
          | cons n' ns =>
            obtain ⟨_, l2, l3⟩ := hl
            have := ih (n' :: ns) l3 k (by simpa using hk)
            unfold valuesBefore at this ⊢
            rw [List.take_succ_cons, List.map_cons, List.sum_cons, this, l2, List.take_succ_cons, List.sum_cons]

theorem uniq_sublist (l : List Nat) : (uniq l).Sublist l := by
  induction l with
  | nil => exact List.Sublist.refl _
  | cons a l ih => exact List.Sublist.cons_cons _ (List.Sublist.trans List.filter_sublist ih)

theorem mem_uniq (l : List Nat) (a : Nat) (h : a ∈ l) : a ∈ uniq l := by
  induction l with
  | nil => simp at h
  | cons b l ih =>
    rw [uniq]
    by_cases hab : a = b
    · rw [hab]; exact List.mem_cons_self
    · apply List.mem_cons_of_mem
      rw [List.mem_filter]
      rcases List.mem_cons.mp h with h | h
      · exact absurd h hab
      · exact ⟨ih h, by simpa using hab⟩

theorem WFI_take (m : Nat) (S : List (List (Slot V))) (need : Bool) (is : List Instr)
    (h : WFI m S need is) : ∀ i ∈ is, i.take < 2 ^ 64 := by
  induction is generalizing need with
  | nil => simp
  | cons i rest ih =>
    obtain ⟨_, _, _, _, _, h6, _, h⟩ := h
    intro x hx
    rcases List.mem_cons.mp hx with rfl | hx
    · exact h6
    · exact ih _ h x hx

/-- Reading from any page whose parts are as they should be. -/
theorem read_ok (codec : Codec V) (p : Page) (r : Rows V) (hr : RowsOk r) (hf : FlatLists r)
    (hp : p.layers = r.layers) (S : List (List (Slot V))) (hS : S.flatten = r.rows.flatten) (hNE : NE S)
    (metas : List ChunkMeta) (hmeta : parseMeta p.numItems p.words 0 0 = some metas)
    (hidx : decodeIndex (indexOf p metas) false 0 = some (blocksOf (listDepth r.layers) S 0))
    (hload : ∀ ks : List Nat, (∀ k ∈ ks, k < S.length) →
      ∃ ls, loadChunks metas p.data ks = some ls ∧ ls.map Loaded.chunk = ks ∧ ∀ c ∈ ls, LoadedOk codec p r S c)
    (ranges : List (Nat × Nat)) (batches : List Nat) (hrange : RangesOk r.rows.length 0 ranges)
    (hst : ∀ x ∈ ranges, StartOk (listDepth r.layers) S x.1) (hb : BatchesOk (selected r.rows ranges).length batches) :
    readPage codec p ranges batches = some ((inBatches batches (selected r.rows ranges)).map (expected r)) := by
  have hrows : ∀ row ∈ r.rows, IsRow (listDepth r.layers) row := fun row h => isRow_of_rowOk r row (hr.rows row h)
  have hsp : (split (listDepth r.layers) S.flatten).2 = r.rows := by rw [hS, split_isRows _ _ hrows]
  have hsmall : ∀ k, (rowsAt (listDepth r.layers) S k).length < 2 ^ 64 := by
    intro k
    by_cases hk : k < S.length
    · have h1 := rowsBefore_succ (listDepth r.layers) S k hk
      have h2 := rowsBefore_mono (listDepth r.layers) S (k + 1) S.length (by omega)
      have h3 : rowsBefore (listDepth r.layers) S S.length = r.rows.length := by
        unfold rowsBefore; rw [List.take_length, hsp]
      have := hr.small
      omega
    · unfold rowsAt slotsAt
      rw [List.getD_eq_getElem?_getD, List.getElem?_eq_none (by omega)]
      simp [split]
  obtain ⟨is, h1, h2, h3, h4⟩ := schedule_ok (listDepth r.layers) S hNE hsmall ranges (by rw [hsp]; exact hrange) hst
  rw [hsp] at h2
  have hch := WFI_chunk _ S false is h3
  obtain ⟨ls, l1, l2, l3⟩ := hload (uniq (is.map Instr.chunk)) (by
    intro k hk
    obtain ⟨i, hi, rfl⟩ := List.mem_map.mp ((uniq_sublist _).subset hk)
    exact hch i hi)
  unfold readPage
  rw [hmeta]
  simp only
  rw [hidx]
  simp only
  rw [h1]
  simp only
  rw [l1]
  simp only
  have hz := shiftHead_zero _ S false is h3
  have := batchLoop_ok codec p r hp S (by rw [hS]; exact slotsOk_of_rows r hr hf) hsmall batches hb.1 is ls 0
    (by rw [hz]; exact h3) (WFI_take _ S false is h3) (by omega)
    ⟨by rw [l2]; exact h4.sublist (uniq_sublist _), h4, by
      intro i hi
      rw [l2]
      exact mem_uniq _ _ (List.mem_map_of_mem hi)⟩ l3 (by rw [hz, h2]; exact hb.2)
  rw [this, hz, h2]

theorem rangesOk_mem (n : Nat) (ranges : List (Nat × Nat)) (at_ : Nat) (h : RangesOk n at_ ranges) :
    ∀ x ∈ ranges, x.1 < n := by
  induction ranges generalizing at_ with
  | nil => simp
  | cons x rest ih =>
    obtain ⟨s, e⟩ := x
    obtain ⟨h1, h2, h3, h4⟩ := h
    intro y hy
    rcases List.mem_cons.mp hy with rfl | hy
    · show s < n
      omega
    · exact ih e h4 y hy

theorem getD_map {A B : Type} (f : A → B) (l : List A) (k : Nat) (d : A) (d' : B) (h : k < l.length) :
    (l.map f).getD k d' = f (l.getD k d) := by
  simp [List.getD, h]

/-- Everything that was written can be read. -/
theorem page_ok (codec : Codec V) (P : V → Prop) (hc : CodecOk codec P) (r : Rows V) (hr : RowsOk r)
    (hf : FlatLists r) (hP : ∀ v ∈ valsOf r.rows.flatten, P v) (c : Compressed)
    (hcomp : codec.compress (valsOf r.rows.flatten) = some c) (p : Page) (hw : write codec r = some p)
    (ranges : List (Nat × Nat)) (batches : List Nat) (hrange : RangesOk r.rows.length 0 ranges)
    (hst : ∀ x ∈ ranges, 0 < x.1 → ∀ k, ¬ Fills c.chunks r.rows (x.1 - 1) k)
    (hb : BatchesOk (selected r.rows ranges).length batches) :
    readPage codec p ranges batches = some ((inBatches batches (selected r.rows ranges)).map (expected r)) := by
  obtain ⟨parts, bytes, hcut⟩ := hc _ c hP hcomp
  have hso := slotsOk_of_rows r hr hf
  have hok : ∀ t ∈ r.rows.flatten, SlotOk r t := fun t ht => (hso.ok t ht).1
  have hlen : c.chunks.length = (parts.map List.length).length := by rw [List.length_map]; exact hcut.chunks
  have hlogs : LogsOk c.chunks (parts.map List.length) := by
    refine logsOk_of _ _ hlen ?_
    intro k hk hk1
    have := hcut.logs k hk
    rw [if_neg (by omega)] at this
    have hkp : k < parts.length := by rw [← hcut.chunks]; exact hk
    refine ⟨this.1, ?_⟩
    rw [getD_map List.length parts k [] 0 hkp, this.2.2]
  have hsum : (parts.map List.length).sum = nv r.rows.flatten := by
    unfold nv; rw [← hcut.values, List.length_flatten]
  have hpne : parts.map List.length ≠ [] := by simpa using hcut.nonempty
  have hcne : c.chunks ≠ [] := by
    intro h0; rw [h0] at hlen; exact hpne (List.length_eq_zero_iff.mp hlen.symm)
  -- the slices
  have hSf := cutAt_flatten (parts.map List.length) r.rows.flatten hpne
  have hSl := cutAt_length (parts.map List.length) r.rows.flatten
  have hSv := cutAt_vals parts r.rows.flatten hcut.values hcut.nonempty
  have hNE := NE_cut c.chunks (parts.map List.length) r.rows.flatten hlogs hsum
  -- what was written
  unfold write writePage at hw
  rw [hcomp] at hw
  simp only at hw
  have hreps : r.repDefs.rep = opt (decide (listDepth r.layers ≠ 0)) Slot.rep r.rows.flatten := repsOf_eq r _
  have hdefs : r.repDefs.defs = opt r.withDefs Slot.dfn r.rows.flatten := rfl
  have hlay : r.repDefs.layers = r.layers := rfl
  rw [hlay, maxRepOf_eq] at hw
  cases hcr : compressLevels r.repDefs r.repDefs.rep (valsOf r.rows.flatten).length c.chunks (listDepth r.layers) with
  | none => rw [hcr] at hw; simp at hw
  | some q1 =>
  obtain ⟨reps, idx⟩ := q1
  rw [hcr] at hw
  simp only at hw
  cases hcd : compressLevels r.repDefs r.repDefs.defs (valsOf r.rows.flatten).length c.chunks 0 with
  | none => rw [hcd] at hw; simp at hw
  | some q2 =>
  obtain ⟨ds, idx2⟩ := q2
  rw [hcd] at hw
  simp only at hw
  cases hser : serialize c.chunks reps ds 0 c.data with
  | none => rw [hser] at hw; simp at hw
  | some q3 =>
  obtain ⟨out, words⟩ := q3
  rw [hser] at hw
  simp only [Option.some.injEq] at hw
  have hro := compressLevels_out r hok _ Slot.rep _ _ c.chunks _ hlogs hlen hsum reps idx (by rw [← hreps]; exact hcr)
  have hdo := compressLevels_out r hok _ Slot.dfn _ _ c.chunks _ hlogs hlen hsum ds idx2 (by rw [← hdefs]; exact hcd)
  generalize hSdef : cutAt (parts.map List.length) r.rows.flatten = S at *
  have hSn : S.length = c.chunks.length := by rw [hSl, hlen]
  have hrl : reps.length = c.chunks.length := by rw [hro, List.length_map, hSn]
  have hdl : ds.length = c.chunks.length := by rw [hdo, List.length_map, hSn]
  have hbl : bytes.length = c.chunks.length := by rw [hcut.lengths, hcut.chunks]
  rw [← hcut.data] at hser
  obtain ⟨s1, s2, s3, s4, s5⟩ := serialize_ok c.chunks reps ds bytes 0 out words hrl hdl hbl rfl
    (fun k hk => (hcut.sizes k hk).1) hser
  have hol := outsOf_length reps ds bytes c.chunks.length hrl hdl hbl
  have hlog16 : ∀ x ∈ c.chunks, x.logNumValues < 16 := by
    intro x hx
    obtain ⟨k, hk, rfl⟩ := List.getElem_of_mem hx
    have := hcut.logs k hk
    by_cases he : k + 1 = c.chunks.length
    · rw [if_pos he] at this; omega
    · rw [if_neg he] at this; omega
  have hmeta : parseMeta p.numItems p.words 0 0 =
      some (metasOf (parts.map List.length) (outsOf reps ds bytes) 0) := by
    rw [← hw]
    simp only
    rw [s2]
    refine parseMeta_ok _ c.chunks _ _ 0 0 hlogs hol hlog16 s3 ?_
    rw [hsum, Nat.zero_add]; rfl
  have hplay : p.layers = r.layers := by rw [← hw]
  refine read_ok codec p r hr hf hplay S hSf hNE _ hmeta ?_ ?_ ranges batches hrange ?_ hb
  · -- the index
    unfold indexOf
    have hri : p.repIndex = idx.flatMap fun e => [e.1, e.2] := by rw [← hw]
    rw [hri]
    by_cases h0 : listDepth r.layers = 0
    · have hidx0 : idx = [] := by
        rw [hreps, h0] at hcr
        simp only [opt, ne_eq, not_true_eq_false, decide_false, Bool.false_eq_true, if_false, compressLevels,
          Option.some.injEq, Prod.mk.injEq] at hcr
        exact hcr.2.symm
      rw [hidx0]
      simp only [List.flatMap_nil, if_true]
      have hnums : (metasOf (parts.map List.length) (outsOf reps ds bytes) 0).map (fun m => (m.numValues, 0)) =
          S.map fun s => (s.length, 0) := by
        have e1 := metasOf_numValues (parts.map List.length) (outsOf reps ds bytes) 0 (by rw [hol, hlen])
        have e2 : S.map List.length = parts.map List.length := by
          rw [← hSv, List.map_map]
          apply List.map_congr_left
          intro s hs
          have hz : ninv s = 0 := by
            rw [ninv, List.countP_eq_zero]
            intro x hx hcx
            have hxm : x ∈ r.rows.flatten := by rw [← hSf]; exact List.mem_flatten.mpr ⟨s, hs, hx⟩
            have := (hok x hxm).1.mpr (Or.inl h0)
            cases hq : x.val <;> simp [hq] at hcx this
          exact (nv_visible s hz).symm
        have e3 : (metasOf (parts.map List.length) (outsOf reps ds bytes) 0).map (fun m => (m.numValues, 0)) =
            ((metasOf (parts.map List.length) (outsOf reps ds bytes) 0).map ChunkMeta.numValues).map fun n => (n, 0) := by
          rw [List.map_map]; rfl
        rw [e3, e1, ← e2, List.map_map]
        rfl
      rw [hnums, h0]
      refine blocks_flat S ?_ 0
      intro s hs t ht
      have hm : t ∈ r.rows.flatten := by rw [← hSf]; exact List.mem_flatten.mpr ⟨s, hs, ht⟩
      have := (hso.ok t hm).2
      omega
    · have hrep : r.repDefs.rep = some (r.rows.flatten.map Slot.rep) := by rw [hreps]; simp [opt, h0]
      obtain ⟨s, ss, e1, e2, e3⟩ := compressLevels_idx r hok _ _ (Nat.pos_of_ne_zero h0) c.chunks _ hlogs hcne hsum reps idx
        (by rw [← hrep]; exact hcr)
      rw [hSdef] at e1
      have hrows : ∀ row ∈ r.rows, IsRow (listDepth r.layers) row := fun row h => isRow_of_rowOk r row (hr.rows row h)
      have hsne : s ≠ [] := by
        cases ss with
        | cons t ts => rw [e1] at hNE; exact hNE.1
        | nil =>
          rw [e1] at hSf
          simp only [List.flatten_cons, List.flatten_nil, List.append_nil] at hSf
          intro hc0
          rw [hc0] at hSf
          have hrn := hr.nonempty
          cases hrr : r.rows with
          | nil => exact hrn hrr
          | cons row rest =>
            have h1 := hrows row (by rw [hrr]; exact List.mem_cons_self)
            rw [hrr, List.flatten_cons] at hSf
            cases row with
            | nil => exact h1
            | cons x xs => simp at hSf
      have hall : ∀ t ∈ S, t ≠ [] := by
        rw [e1]
        intro t ht
        rcases List.mem_cons.mp ht with h | h
        · rw [h]; exact hsne
        · exact e3 t h
      rw [e2, ← e1]
      have hne : (idxOf (listDepth r.layers) S).flatMap (fun e => [e.1, e.2]) ≠ [] := by
        rw [e1, idxOf, List.flatMap_cons]; simp
      rw [if_neg hne, pairs_flatMap]
      have hpre : nextPre (listDepth r.layers) S = false := by
        rw [e1]
        show (!(split (listDepth r.layers) s).1.isEmpty) = false
        have h1 : s ++ ss.flatten = r.rows.flatten := by rw [← hSf, e1, List.flatten_cons]
        cases s with
        | nil => exact absurd rfl hsne
        | cons y ys =>
          cases hrr : r.rows with
          | nil => exact absurd hrr hr.nonempty
          | cons row rest =>
            have h2 := hrows row (by rw [hrr]; exact List.mem_cons_self)
            rw [hrr, List.flatten_cons] at h1
            cases row with
            | nil => exact absurd h2 (by simp [IsRow])
            | cons x xs =>
              simp only [List.cons_append, List.cons.injEq] at h1
              rw [split, h1.1, if_pos h2.1]
              rfl
      have := decodeIndex_ok (listDepth r.layers) S hall 0
      rwa [hpre] at this
  · -- the chunks
    intro ks hks
    have hpd : p.data = (outsOf reps ds bytes).flatten := by rw [← hw, ← s1]
    rw [hpd, loadChunks_ok _ _ (by rw [hol, hlen]) ks (fun k hk => by rw [hol, ← hSn]; exact hks k hk)]
    refine ⟨_, rfl, ?_, ?_⟩
    · rw [List.map_map]
      exact (List.map_congr_left (fun k _ => rfl)).trans (List.map_id ks)
    · intro x hx
      obtain ⟨k, hk, rfl⟩ := List.mem_map.mp hx
      have hkS := hks k hk
      have hkp : k < parts.length := by rw [← hcut.chunks, ← hSn]; exact hkS
      have hkc : k < c.chunks.length := by rw [← hSn]; exact hkS
      have hpart : valsOf (slotsAt S k) = parts.getD k [] := by
        rw [← hSv, getD_map valsOf S k [] [] hkS]; rfl
      have hnk : (parts.map List.length).getD k 0 = nv (slotsAt S k) := by
        rw [getD_map List.length parts k [] 0 hkp, ← hpart]; rfl
      refine ⟨hnk, ?_⟩
      simp only
      have hog := outsOf_get reps ds bytes c.chunks.length hrl hdl hbl k hkc
      rw [List.getD_eq_getElem?_getD, hog, Option.getD_some]
      have hrk : reps.getD k [] = lvBytes (decide (listDepth r.layers ≠ 0)) Slot.rep (slotsAt S k) := by
        rw [hro, getD_map _ S k [] [] hkS]; rfl
      have hdk : ds.getD k [] = lvBytes r.withDefs Slot.dfn (slotsAt S k) := by
        rw [hdo, getD_map _ S k [] [] hkS]; rfl
      have hev : (reps.getD k []).length % 2 = 0 := by
        rw [hrk]; unfold lvBytes
        split
        · rw [packLevels_length]; omega
        · rfl
      have hin : ∀ (l : List (List Nat)), l.length = c.chunks.length → l.getD k [] ∈ l := by
        intro l hl
        have : k < l.length := by omega
        simp [List.getD, this]
      have hlr := s4 _ (hin reps hrl)
      have hld := s5 _ (hin ds hdl)
      have hsz := hcut.sizes k hkc
      have hdec := hcut.decode k hkp
      have hpl : (parts.map List.length).getD k 0 = (parts.getD k []).length := getD_map List.length parts k [] 0 hkp
      rw [← hpl] at hdec
      rw [decodeChunk_ok codec p.repFlat p.defFlat _ _ _ _ _ (by omega) (by omega) (by omega) hev hdec]
      have hmem : ∀ t ∈ slotsAt S k, SlotOk r t := by
        intro t ht
        have := slotsAt_mem S k t ht
        rw [hSf] at this
        exact hok t this
      have hrf : p.repFlat = decide (listDepth r.layers ≠ 0) := by
        rw [← hw]
        simp only
        rw [hreps]
        by_cases h0 : listDepth r.layers = 0 <;> simp [opt, h0]
      have hdf : p.defFlat = r.withDefs := by
        rw [← hw]
        simp only
        rw [hdefs]
        cases r.withDefs <;> simp [opt]
      rw [hrf, hdf, hrk, hdk, repsOf_eq, defsOf_eq, hpart]
      have hfl : ∀ (b : Bool) (f : Slot V → Nat), (∀ t ∈ slotsAt S k, f t < 65536) →
          (if b then some (unpackLevels (lvBytes b f (slotsAt S k))) else none) = opt b f (slotsAt S k) := by
        intro b f hbd
        cases b with
        | false => rfl
        | true =>
          simp only [if_true, lvBytes, opt]
          rw [unpack_pack]
          intro l hl
          obtain ⟨t, ht, rfl⟩ := List.mem_map.mp hl
          exact hbd t ht
      rw [hfl _ _ fun t ht => (hmem t ht).2.2.1, hfl _ _ fun t ht => (hmem t ht).2.2.2]
  · -- the ranges
    intro x hx
    refine startOk r hr hf S hSf hNE c.chunks hSn.symm ?_ x.1 (rangesOk_mem _ _ _ hrange x hx) (hst x hx)
    intro k hk
    rw [valuesBefore_eq c.chunks _ hlogs k (by omega), nv_flatten, List.map_take]
    congr 2
    rw [← hSv, List.map_map]
    rfl

end Verif.Mini
