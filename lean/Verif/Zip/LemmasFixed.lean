import Verif.Zip.LemmasRows
/-!
# Reading values of a fixed width
-/
namespace Verif.Zip
open Verif.Mini

variable {ps : Parser} {maxRep maxVis : Nat} {word : S → List Nat} {dsc : S → Desc}

/-- All values have the given width. -/
def WidthOk (bpv : Nat) (row : List S) : Prop := ∀ s ∈ row, ∀ v, s.val = some v → v.length = bpv

theorem slot_bytes_length {bpv : Nat} {s : S} (h : SlotGood ps maxRep maxVis word dsc s) (hv : ∀ v, s.val = some v → v.length = bpv) :
    (word s ++ fixedBody s).length = if (dsc s).visible then ps.size + bpv else ps.size := by
  rw [List.length_append, h.length, h.descs]
  unfold fixedBody
  cases e : s.val with
  | none => rfl
  | some v =>
    have := hv v e
    simp [this]

/-- One round of the slicing loop. -/
theorem sliceLoop_step {bpv : Nat} (want fuel : Nat) (pre rest : List Nat) (s : S) (k items : Nat) (h : SlotGood ps maxRep maxVis word dsc s)
    (hv : ∀ v, s.val = some v → v.length = bpv) (hne : 0 < ps.size) (hgo : ((dsc s).newRow && k == want) = false) :
    sliceLoop ps maxRep maxVis bpv want (fuel + 1) (pre ++ (word s ++ fixedBody s ++ rest)) k items pre.length =
      sliceLoop ps maxRep maxVis bpv want fuel (pre ++ (word s ++ fixedBody s) ++ rest) (if (dsc s).newRow then k + 1 else k) (items + 1)
        (pre ++ (word s ++ fixedBody s)).length := by
  rw [sliceLoop, if_pos (by simp only [List.length_append, h.length]; omega), List.drop_left, List.append_assoc (word s), h.desc]
  simp only
  rw [hgo, if_neg (by simp), ← slot_bytes_length h hv, List.length_append (as := pre), List.append_assoc pre, List.append_assoc (word s)]

theorem sliceLoop_cont {bpv : Nat} (want : Nat) (hne : 0 < ps.size) : ∀ (cs : List S) (fuel : Nat) (pre rest : List Nat) (k items : Nat),
    (∀ s ∈ cs, SlotGood ps maxRep maxVis word dsc s) → WidthOk bpv cs → (∀ s ∈ cs, (dsc s).newRow = false) →
    sliceLoop ps maxRep maxVis bpv want (fuel + cs.length) (pre ++ (bytesOf word fixedBody cs ++ rest)) k items pre.length =
      sliceLoop ps maxRep maxVis bpv want fuel (pre ++ bytesOf word fixedBody cs ++ rest) k (items + cs.length)
        (pre ++ bytesOf word fixedBody cs).length
  | [], fuel, pre, rest, k, items, _, _, _ => by simp [bytesOf]
  | c :: cs, fuel, pre, rest, k, items, h1, h2, h3 => by
    rw [bytesOf_cons, List.length_cons, ← Nat.add_assoc, List.append_assoc (word c ++ fixedBody c),
      sliceLoop_step want _ pre _ c k items (h1 c (by simp)) (h2 c (by simp)) hne (by rw [h3 c (by simp)]; rfl), h3 c (by simp), if_neg (by simp),
      sliceLoop_cont want hne cs fuel _ rest k (items + 1) (fun t ht => h1 t (List.mem_cons_of_mem _ ht)) (fun t ht => h2 t (List.mem_cons_of_mem _ ht))
        (fun t ht => h3 t (List.mem_cons_of_mem _ ht))]
    congr 1
    · simp only [List.append_assoc]
    · omega
    · simp only [List.append_assoc]

theorem sliceLoop_rows {bpv : Nat} (want : Nat) (hne : 0 < ps.size) : ∀ (rs : List (List S)) (fuel : Nat) (pre : List Nat) (k items : Nat),
    (∀ row ∈ rs, RowGood ps maxRep maxVis word dsc row ∧ WidthOk bpv row) → k ≤ want → rs.flatten.length ≤ fuel →
    sliceLoop ps maxRep maxVis bpv want fuel (pre ++ bytesOf word fixedBody rs.flatten) k items pre.length =
      some (pre.length + (bytesOf word fixedBody (rs.take (want - k)).flatten).length, items + (rs.take (want - k)).flatten.length,
        k + min (want - k) rs.length)
  | [], fuel, pre, k, items, _, _, _ => by
    cases fuel with
    | zero => simp [sliceLoop, bytesOf]
    | succ fuel =>
      rw [sliceLoop, if_neg (by simp [bytesOf])]
      simp [bytesOf]
  | row :: rs, fuel, pre, k, items, h, hk, hf => by
    obtain ⟨hg, hw⟩ := h row (by simp)
    obtain ⟨s, cs, e1, e2, e3⟩ := hg.shape
    subst e1
    have hs := hg.slots s (by simp)
    rw [List.flatten_cons, List.length_append, List.length_cons] at hf
    rw [List.flatten_cons, bytesOf_append, bytesOf_cons, List.append_assoc (word s ++ fixedBody s)]
    obtain ⟨f, rfl⟩ : ∃ f, fuel = f + cs.length + 1 := ⟨fuel - cs.length - 1, by omega⟩
    by_cases hkw : k = want
    · subst hkw
      rw [sliceLoop, if_pos (by simp only [List.length_append, hs.length]; omega), List.drop_left, List.append_assoc (word s), hs.desc]
      simp only
      rw [e2, if_pos (by simp)]
      simp [bytesOf]
    · rw [sliceLoop_step want _ pre _ s k items hs (hw s (by simp)) hne (by rw [e2]; simpa using hkw), e2, if_pos rfl,
        sliceLoop_cont want hne cs f _ _ (k + 1) (items + 1) (fun t ht => hg.slots t (List.mem_cons_of_mem _ ht)) (fun t ht => hw t (List.mem_cons_of_mem _ ht)) e3,
        sliceLoop_rows want hne rs f _ (k + 1) _ (fun t ht => h t (List.mem_cons_of_mem _ ht)) (by omega) (by omega)]
      have ht : (( s :: cs) :: rs).take (want - k) = (s :: cs) :: rs.take (want - (k + 1)) := by
        rw [show want - k = want - (k + 1) + 1 from by omega, List.take_succ_cons]
      rw [ht]
      simp only [List.flatten_cons, bytesOf_append, bytesOf_cons, List.length_append, List.length_cons, Option.some.injEq, Prod.mk.injEq]
      refine ⟨by omega, by omega, by omega⟩

theorem bytesOf_pos (hne : 0 < ps.size) (ss : List S) (h : ∀ s ∈ ss, SlotGood ps maxRep maxVis word dsc s) (body : S → List Nat) :
    ss.length ≤ (bytesOf word body ss).length := by
  induction ss with
  | nil => exact Nat.zero_le _
  | cons s ss ih =>
    have := ih fun t ht => h t (List.mem_cons_of_mem _ ht)
    have hs := (h s (by simp)).length
    rw [bytesOf_cons, List.length_append, List.length_append, List.length_cons]
    omega

/-- Without repetition levels each row is one item with a value. -/
theorem row_flat {row : List S} (h : RowGood ps maxRep maxVis word dsc row) (hr : ps.hasRep = false) : ∃ s v, row = [s] ∧ s.val = some v := by
  obtain ⟨s, cs, e1, e2, e3⟩ := h.shape
  subst e1
  obtain ⟨v, hv⟩ := Option.isSome_iff_exists.mp (h.flat hr s (by simp))
  refine ⟨s, v, ?_, hv⟩
  cases cs with
  | nil => rfl
  | cons c cs =>
    have h1 := e3 c (by simp)
    rw [(h.slots c (by simp)).descs, hr] at h1
    simp at h1

theorem flat_length {bpv : Nat} (hr : ps.hasRep = false) : ∀ (rs : List (List S)), (∀ row ∈ rs, RowGood ps maxRep maxVis word dsc row ∧ WidthOk bpv row) →
    (bytesOf word fixedBody rs.flatten).length = rs.length * (ps.size + bpv) ∧ rs.flatten.length = rs.length
  | [], _ => by simp [bytesOf]
  | row :: rs, h => by
    obtain ⟨hg, hw⟩ := h row (by simp)
    obtain ⟨s, v, rfl, hv⟩ := row_flat hg hr
    obtain ⟨i1, i2⟩ := flat_length (bpv := bpv) hr rs fun t ht => h t (List.mem_cons_of_mem _ ht)
    have hl := slot_bytes_length (hg.slots s (by simp)) (hw s (by simp))
    have hvis : (dsc s).visible = true := by rw [(hg.slots s (by simp)).descs, hv]; rfl
    rw [hvis, if_pos rfl] at hl
    rw [List.flatten_cons, bytesOf_append, bytesOf_cons, List.length_append, List.length_append, hl, i1, List.length_append, i2]
    refine ⟨?_, ?_⟩
    · simp [bytesOf, Nat.succ_mul]; omega
    · simp; omega

theorem bytesOf_take_drop (word body : S → List Nat) (seg : List (List S)) (n : Nat) :
    bytesOf word body seg.flatten = bytesOf word body (seg.take n).flatten ++ bytesOf word body (seg.drop n).flatten := by
  rw [← bytesOf_append, ← List.flatten_append, List.take_append_drop]

/-- One task takes rows off the first buffer. -/
theorem sliceTask_rows {bpv : Nat} (want : Nat) (seg : List (List S)) (rest : List (List Nat)) (hbpv : 0 < bpv)
    (hsz : ps.hasRep = true → 0 < ps.size)
    (h : ∀ row ∈ seg, RowGood ps maxRep maxVis word dsc row ∧ WidthOk bpv row) :
    sliceTask ps maxRep maxVis bpv want (bytesOf word fixedBody seg.flatten :: rest) =
      some (⟨bytesOf word fixedBody (seg.take want).flatten, (seg.take want).length, (seg.take want).flatten.length⟩,
        if seg.length ≤ want then rest else bytesOf word fixedBody (seg.drop want).flatten :: rest) := by
  unfold sliceTask
  simp only
  have htd := bytesOf_take_drop word fixedBody seg want
  have hg : ∀ s ∈ seg.flatten, SlotGood ps maxRep maxVis word dsc s := by
    intro s hs
    obtain ⟨row, h1, h2⟩ := List.mem_flatten.mp hs
    exact (h row h1).1.slots s h2
  have htake : ∀ row ∈ seg.take want, RowGood ps maxRep maxVis word dsc row ∧ WidthOk bpv row := fun row hr => h row (List.mem_of_mem_take hr)
  have hdrop : ∀ row ∈ seg.drop want, RowGood ps maxRep maxVis word dsc row ∧ WidthOk bpv row := fun row hr => h row (List.mem_of_mem_drop hr)
  by_cases hr : ps.hasRep = true
  · have hne := hsz hr
    have hloop := sliceLoop_rows want hne seg (bytesOf word fixedBody seg.flatten).length [] 0 0 h (Nat.zero_le _)
      (bytesOf_pos hne _ hg _)
    simp only [List.nil_append, List.length_nil, Nat.zero_add, Nat.sub_zero] at hloop
    rw [if_pos hr, hloop]
    simp only
    rw [if_pos (by rw [htd, List.length_append]; omega), htd, List.take_left, List.drop_left, List.length_take]
    congr 2
    have hlen : (bytesOf word fixedBody (seg.take want).flatten).length = (bytesOf word fixedBody (seg.take want).flatten ++ bytesOf word fixedBody (seg.drop want).flatten).length ↔ seg.length ≤ want := by
      rw [List.length_append]
      constructor
      · intro e
        have hpos := bytesOf_pos hne (seg.drop want).flatten (fun s hs => by
          obtain ⟨row, h1, h2⟩ := List.mem_flatten.mp hs
          exact (hdrop row h1).1.slots s h2) fixedBody
        by_cases hc : seg.length ≤ want
        · exact hc
        · have hd0 : seg.drop want ≠ [] := fun e => by have := List.drop_eq_nil_iff.mp e; omega
          obtain ⟨row, hrow⟩ := List.exists_mem_of_ne_nil _ hd0
          obtain ⟨s, cs, e1, _⟩ := (hdrop row hrow).1.shape
          have : 0 < (seg.drop want).flatten.length := List.length_pos_of_mem (List.mem_flatten.mpr ⟨row, hrow, by rw [e1]; simp⟩ : s ∈ _)
          omega
      · intro e
        rw [List.drop_eq_nil_iff.mpr e]
        simp [bytesOf]
    by_cases hc : seg.length ≤ want
    · rw [if_pos hc, if_pos (hlen.mpr hc)]
    · rw [if_neg hc, if_neg (fun e => hc (hlen.mp e))]
  · have hr' : ps.hasRep = false := by simpa using hr
    obtain ⟨l1, l2⟩ := flat_length hr' seg h
    obtain ⟨t1, t2⟩ := flat_length hr' (seg.take want) htake
    have hL : 0 < ps.size + bpv := by omega
    rw [if_neg hr]
    by_cases hc : seg.length ≤ want
    · rw [if_pos (by rw [l1]; exact Nat.mul_le_mul_right _ hc), if_pos hc, l1, Nat.mul_div_cancel _ hL, List.take_of_length_le hc, l2]
    · have hlt : want * (ps.size + bpv) < (bytesOf word fixedBody seg.flatten).length := by
        rw [l1]; exact Nat.mul_lt_mul_of_pos_right (by omega) hL
      have htl : (seg.take want).length = want := by rw [List.length_take]; omega
      rw [if_neg (by omega), if_neg hc]
      rw [htl] at t1 t2
      rw [htd, ← t1, List.take_left, List.drop_left, t2, htl]

/-- The task that takes some rows. -/
def taskOf (word : S → List Nat) (seg : List (List S)) : Task := ⟨bytesOf word fixedBody seg.flatten, seg.length, seg.flatten.length⟩

theorem drainLoop_zero {bpv : Nat} (fuel : Nat) (b : List (List Nat)) : drainLoop ps maxRep maxVis bpv fuel 0 b = some ([], b) := by
  cases fuel <;> rfl

theorem drainLoop_succ {bpv fuel want : Nat} {bufs bufs' : List (List Nat)} {t : Task} (h : sliceTask ps maxRep maxVis bpv (want + 1) bufs = some (t, bufs')) :
    drainLoop ps maxRep maxVis bpv (fuel + 1) (want + 1) bufs =
      (drainLoop ps maxRep maxVis bpv fuel (want + 1 - t.rows) bufs').map fun r => (t :: r.1, r.2) := by
  rw [drainLoop, h]

theorem drainLoop_rows {bpv : Nat} (hbpv : 0 < bpv) (hsz : ps.hasRep = true → 0 < ps.size) (fuel : Nat) : ∀ (want : Nat) (segs : List (List (List S))),
    want ≤ fuel → want ≤ segs.flatten.length → (∀ seg ∈ segs, seg ≠ []) →
    (∀ seg ∈ segs, ∀ row ∈ seg, RowGood ps maxRep maxVis word dsc row ∧ WidthOk bpv row) →
    ∃ tsegs segs' : List (List (List S)), drainLoop ps maxRep maxVis bpv fuel want (segs.map fun seg => bytesOf word fixedBody seg.flatten) =
        some (tsegs.map (taskOf word), segs'.map fun seg => bytesOf word fixedBody seg.flatten) ∧
      tsegs.flatten = segs.flatten.take want ∧ segs'.flatten = segs.flatten.drop want ∧ (∀ seg ∈ segs', seg ≠ []) := by
  induction fuel with
  | zero =>
    intro want segs hf _ hne _
    obtain rfl : want = 0 := by omega
    exact ⟨[], segs, rfl, by simp, by simp, hne⟩
  | succ fuel ih =>
    intro want segs hf hw hne h
    cases want with
    | zero => exact ⟨[], segs, drainLoop_zero _ _, by simp, by simp, hne⟩
    | succ want =>
      cases segs with
      | nil => simp at hw
      | cons seg segs =>
        have hst := sliceTask_rows (want + 1) seg (segs.map fun seg => bytesOf word fixedBody seg.flatten) hbpv hsz (h seg (by simp))
        have hseg := hne seg (by simp)
        have hpos := List.length_pos_iff.mpr hseg
        rw [List.flatten_cons, List.length_append] at hw
        rw [List.map_cons, drainLoop_succ hst]
        by_cases hc : seg.length ≤ want + 1
        · obtain ⟨tsegs, segs', q1, q2, q3, q4⟩ := ih (want + 1 - seg.length) segs (by omega) (by omega)
            (fun t ht => hne t (List.mem_cons_of_mem _ ht)) (fun t ht => h t (List.mem_cons_of_mem _ ht))
          refine ⟨seg :: tsegs, segs', ?_, ?_, ?_, q4⟩
          · rw [if_pos hc, List.take_of_length_le hc, q1]
            rfl
          · rw [List.flatten_cons, List.flatten_cons, q2, List.take_append, List.take_of_length_le hc]
          · rw [List.flatten_cons, q3, List.drop_append, List.drop_eq_nil_iff.mpr hc, List.nil_append]
        · have htl : (seg.take (want + 1)).length = want + 1 := by rw [List.length_take]; omega
          refine ⟨[seg.take (want + 1)], seg.drop (want + 1) :: segs, ?_, ?_, ?_, ?_⟩
          · rw [if_neg hc, htl, Nat.sub_self, drainLoop_zero, Option.map_some]
            unfold taskOf
            rw [List.map_cons, List.map_nil, List.map_cons, htl]
          · rw [List.flatten_cons, List.flatten_cons, List.flatten_nil, List.append_nil, List.take_append_of_le_length (by omega)]
          · rw [List.flatten_cons, List.flatten_cons, List.drop_append_of_le_length (by omega)]
          · intro t ht
            rcases List.mem_cons.mp ht with e | e
            · subst e
              intro e
              have := List.drop_eq_nil_iff.mp e
              omega
            · exact hne t (List.mem_cons_of_mem _ e)

theorem unzipLoop_slots {bpv : Nat} : ∀ (ss : List S), (∀ s ∈ ss, SlotGood ps maxRep maxVis word dsc s) → WidthOk bpv ss →
    unzipLoop ps maxVis bpv ss.length (bytesOf word fixedBody ss) =
      some (if ps.hasRep then ss.map Slot.rep else [], if ps.hasDef then ss.map Slot.dfn else [], valsOf ss)
  | [], _, _ => by simp [unzipLoop, valsOf]
  | s :: ss, h, hw => by
    have hs := h s (by simp)
    have ih := unzipLoop_slots ss (fun t ht => h t (List.mem_cons_of_mem _ ht)) (fun t ht => hw t (List.mem_cons_of_mem _ ht))
    have hvis : (if ps.hasDef then some s.dfn else none).all (fun x => decide (x ≤ maxVis)) = s.val.isSome := by
      rw [← hs.visible]
      cases ps.hasDef <;> rfl
    rw [List.length_cons, bytesOf_cons, List.append_assoc, unzipLoop, hs.levels]
    simp only
    rw [hvis, ← hs.length, List.drop_left]
    cases e : s.val with
    | none =>
      rw [if_neg (by simp), show fixedBody s = [] from by unfold fixedBody; rw [e]; rfl, List.nil_append, ih]
      rw [show valsOf (s :: ss) = valsOf ss from by unfold valsOf; rw [List.filterMap_cons, e]]
      cases ps.hasRep <;> cases ps.hasDef <;> simp
    | some v =>
      have hv := hw s (by simp) v e
      rw [if_pos (by simp), show fixedBody s = v from by unfold fixedBody; rw [e]; rfl, if_neg (by rw [List.length_append]; omega), ← hv, List.drop_left, List.take_left, hv, ih]
      rw [show valsOf (s :: ss) = v :: valsOf ss from by unfold valsOf; rw [List.filterMap_cons, e]]
      cases ps.hasRep <;> cases ps.hasDef <;> simp

theorem cutFixed_slots {bpv : Nat} : ∀ (ss : List S), (∀ s ∈ ss, (word s) = [] ∧ s.val.isSome = true) → WidthOk bpv ss →
    cutFixed bpv ss.length (bytesOf word fixedBody ss) = some (valsOf ss)
  | [], _, _ => rfl
  | s :: ss, h, hw => by
    obtain ⟨h1, h2⟩ := h s (by simp)
    obtain ⟨v, e⟩ := Option.isSome_iff_exists.mp h2
    have ih := cutFixed_slots ss (fun t ht => h t (List.mem_cons_of_mem _ ht)) (fun t ht => hw t (List.mem_cons_of_mem _ ht))
    have hv := hw s (by simp) v e
    rw [List.length_cons, bytesOf_cons, cutFixed, h1, List.nil_append, show fixedBody s = v from by unfold fixedBody; rw [e]; rfl,
      if_neg (by rw [List.length_append]; omega), ← hv, List.drop_left, List.take_left, hv, ih]
    rw [show valsOf (s :: ss) = v :: valsOf ss from by unfold valsOf; rw [List.filterMap_cons, e]]
    rfl

theorem valsOf_append {V : Type} (a b : List (Slot V)) : valsOf (a ++ b) = valsOf a ++ valsOf b := List.filterMap_append

theorem flatMap_vals (tsegs : List (List (List S))) : tsegs.flatMap (fun seg => valsOf seg.flatten) = valsOf tsegs.flatten.flatten := by
  induction tsegs with
  | nil => rfl
  | cons t ts ih => rw [List.flatMap_cons, ih, List.flatten_cons, List.flatten_append, valsOf_append]

theorem flatMap_levels (f : S → Nat) (b : Bool) (tsegs : List (List (List S))) : tsegs.flatMap (fun seg => if b then seg.flatten.map f else []) =
    if b then tsegs.flatten.flatten.map f else [] := by
  induction tsegs with
  | nil => cases b <;> rfl
  | cons t ts ih => rw [List.flatMap_cons, ih, List.flatten_cons, List.flatten_append]; cases b <;> simp

/-- What a batch is decoded to. -/
theorem decode_rows {bpv : Nat} (r : Rows (List Nat)) (hrep : ps.hasRep = decide (listDepth r.layers ≠ 0)) (hdef : ps.hasDef = r.withDefs)
    (hz : ps.size = 0 → listDepth r.layers = 0 ∧ r.withDefs = false)
    (tsegs : List (List (List S))) (hne : tsegs.flatten ≠ [])
    (h : ∀ row ∈ tsegs.flatten, RowGood ps maxRep maxVis word dsc row ∧ WidthOk bpv row) :
    decodeTasks ps maxVis bpv (tsegs.map (taskOf word)) = some (expected r tsegs.flatten) := by
  have hg : ∀ seg ∈ tsegs, ∀ s ∈ seg.flatten, SlotGood ps maxRep maxVis word dsc s := by
    intro seg hseg s hs
    obtain ⟨row, h1, h2⟩ := List.mem_flatten.mp hs
    exact (h row (List.mem_flatten.mpr ⟨seg, hseg, h1⟩)).1.slots s h2
  have hw : ∀ seg ∈ tsegs, WidthOk bpv seg.flatten := by
    intro seg hseg s hs
    obtain ⟨row, h1, h2⟩ := List.mem_flatten.mp hs
    exact (h row (List.mem_flatten.mpr ⟨seg, hseg, h1⟩)).2 s h2
  have hslots : tsegs.flatten.flatten ≠ [] := by
    obtain ⟨row, hrow⟩ := List.exists_mem_of_ne_nil _ hne
    obtain ⟨s, cs, e, _⟩ := (h row hrow).1.shape
    exact List.ne_nil_of_mem (List.mem_flatten.mpr ⟨row, hrow, by rw [e]; simp⟩ : s ∈ _)
  unfold decodeTasks
  rw [if_neg (by intro e; rw [List.map_eq_nil_iff] at e; rw [e] at hne; exact hne rfl)]
  by_cases hs0 : ps.size = 0
  · obtain ⟨z1, z2⟩ := hz hs0
    rw [if_pos hs0, List.mapM_map, mapM_some_map _ (fun seg => valsOf seg.flatten) _ ?_]
    · unfold expected repsOf defsOf
      rw [if_pos z1, z2]
      simp only [Option.map_some]
      rw [← List.flatMap_def, flatMap_vals]
      rfl
    · intro seg hseg
      refine cutFixed_slots _ (fun s hs => ⟨?_, ?_⟩) (hw seg hseg)
      · exact List.eq_nil_of_length_eq_zero ((hg seg hseg s hs).length.trans hs0)
      · obtain ⟨row, h1, h2⟩ := List.mem_flatten.mp hs
        refine (h row (List.mem_flatten.mpr ⟨seg, hseg, h1⟩)).1.flat ?_ s h2
        rw [hrep, z1]; rfl
  · rw [if_neg hs0, List.mapM_map, mapM_some_map ((fun t : Task => unzipLoop ps maxVis bpv t.items t.bytes) ∘ taskOf word) (fun seg => (if ps.hasRep then seg.flatten.map Slot.rep else [],
      if ps.hasDef then seg.flatten.map Slot.dfn else [], valsOf seg.flatten)) _ fun seg hseg => unzipLoop_slots _ (hg seg hseg) (hw seg hseg)]
    simp only [Option.map_some, List.flatMap_map]
    rw [flatMap_vals, flatMap_levels, flatMap_levels, hrep, hdef]
    unfold expected repsOf defsOf someLevels
    congr 2
    · by_cases hd : listDepth r.layers = 0
      · simp [hd]
      · rw [decide_eq_true hd, if_pos rfl, if_neg hd, if_neg (by rwa [List.map_eq_nil_iff])]
    · cases r.withDefs with
      | false => simp
      | true => rw [if_pos rfl, if_pos rfl, if_neg (by rwa [List.map_eq_nil_iff])]

theorem batchFixed_rows {bpv n : Nat} (hbpv : 0 < bpv) (hn : 0 < n) (r : Rows (List Nat)) (hrep : ps.hasRep = decide (listDepth r.layers ≠ 0))
    (hdef : ps.hasDef = r.withDefs) (hz : ps.size = 0 → listDepth r.layers = 0 ∧ r.withDefs = false) :
    ∀ (batches : List Nat) (segs : List (List (List S))), (∀ b ∈ batches, 0 < b) → (batches.map (· * n)).sum ≤ segs.flatten.length →
    (∀ seg ∈ segs, seg ≠ []) → (∀ row ∈ segs.flatten, RowGood ps maxRep maxVis word dsc row ∧ WidthOk bpv row) →
    batchFixed ps maxRep maxVis bpv n batches (segs.map fun seg => bytesOf word fixedBody seg.flatten) =
      some ((inBatches (batches.map (· * n)) segs.flatten).map (expected r))
  | [], segs, _, _, _, _ => rfl
  | b :: batches, segs, hb, hs, hne, h => by
    have hsz : ps.hasRep = true → 0 < ps.size := by
      intro e
      rw [hrep] at e
      by_cases h0 : ps.size = 0
      · exact absurd (hz h0).1 (by simpa using e)
      · omega
    rw [List.map_cons, List.sum_cons] at hs
    obtain ⟨tsegs, segs', q1, q2, q3, q4⟩ := drainLoop_rows (maxRep := maxRep) (maxVis := maxVis) (dsc := dsc) hbpv hsz (b * n) (b * n) segs (Nat.le_refl _) (by omega) hne
      (fun seg hseg row hrow => h row (List.mem_flatten.mpr ⟨seg, hseg, hrow⟩))
    have hpos : 0 < b * n := Nat.mul_pos (hb b (by simp)) hn
    have hd := decode_rows r hrep hdef hz tsegs (by
      rw [q2]
      intro e
      have := congrArg List.length e
      rw [List.length_take, List.length_nil] at this
      omega) (fun row hrow => h row (by rw [q2] at hrow; exact List.mem_of_mem_take hrow))
    have ih := batchFixed_rows hbpv hn r hrep hdef hz batches segs' (fun x hx => hb x (List.mem_cons_of_mem _ hx))
      (by rw [q3, List.length_drop]; omega) q4 (fun row hrow => h row (by rw [q3] at hrow; exact List.mem_of_mem_drop hrow))
    rw [batchFixed, q1]
    simp only
    rw [hd, ih, q2, q3]
    rfl

theorem selected_scaled_length {A : Type} (rows : List A) (n k : Nat) (hk : rows.length = n * k) (rs : List (Nat × Nat)) (hrs : RangesOk k 0 rs) :
    (selected rows (scaled n rs)).length = n * (selected (List.range k) rs).length := by
  have hm := rangesOk_mem _ _ _ hrs
  clear hrs
  induction rs with
  | nil => rfl
  | cons x rs ih =>
    have ih := ih fun y hy => hm y (List.mem_cons_of_mem _ hy)
    obtain ⟨x1, x2⟩ := hm x (by simp)
    unfold selected scaled at *
    rw [List.map_cons, List.flatMap_cons, List.length_append, ih, List.flatMap_cons, List.length_append, Nat.mul_add]
    congr 1
    have y1 : x.2 * n ≤ n * k := by rw [Nat.mul_comm]; exact Nat.mul_le_mul_left n x2
    have y3 : (x.2 - x.1) * n = x.2 * n - x.1 * n := Nat.sub_mul _ _ _
    simp only [List.length_take, List.length_drop, List.length_range, hk]
    rw [Nat.min_eq_left (by omega), Nat.min_eq_left (by omega), Nat.mul_comm n, y3]

/-- A page of values of a fixed width is read as it was written; rows are `n` items each. -/
theorem fixed_pages (bpv n k : Nat) (r : Rows (List Nat)) (ranges : List (Nat × Nat)) (batches : List Nat) (hbpv : 0 < bpv) (hn : 0 < n)
    (h : RowsOk r) (hl : LevelsOk r) (hp : Plain r) (hv : ∀ v ∈ valsOf r.rows.flatten, v.length = bpv)
    (hk : r.rows.length = n * k) (hsize : pageSize 4 r < 2 ^ 64) (hr : RangesOk k 0 ranges) (hb : BatchesOk (selected (List.range k) ranges).length batches) :
    ∃ p, writeFixed r.repDefs (valsOf r.rows.flatten) k = some p ∧
      readFixed bpv n p ranges batches =
        some ((inBatches (batches.map (· * n)) (selected r.rows (scaled n ranges))).map (expected r)) := by
  obtain ⟨w, word, dsc, c1, c2, c3, c4, c5, c6, c7, c8, c9, c10⟩ := page_words r h hl hp
  have hw : ∀ row ∈ r.rows, WidthOk bpv row := by
    intro row hrow s hs v e
    refine hv v (List.mem_filterMap.mpr ⟨s, List.mem_flatten.mpr ⟨row, hrow, hs⟩, e⟩)
  have hg : ∀ s ∈ r.rows.flatten, SlotGood (Parser.new w.bitsRep w.bitsDef) (maxRepOf r.layers) (maxVisibleZip r.layers) word dsc s := by
    intro s hs
    obtain ⟨row, h1, h2⟩ := List.mem_flatten.mp hs
    exact (c10 row h1).slots s h2
  have hzip := zipFixed_slots word dsc r.rows.flatten 0 (fun s hs => by rw [(hg s hs).descs])
  rw [slotStarts_rows word fixedBody (fun s => (dsc s).newRow) r.rows 0 (fun row hrow => (c10 row hrow).shape)] at hzip
  have hlen : (bytesOf word fixedBody r.rows.flatten).length = (valsOf r.rows.flatten).flatten.length + w.bytesPerWord * r.rows.flatten.length := by
    have : ∀ ss : List S, (∀ s ∈ ss, (word s).length = w.bytesPerWord) → (bytesOf word fixedBody ss).length = (valsOf ss).flatten.length + w.bytesPerWord * ss.length := by
      intro ss
      induction ss with
      | nil => intro _; rfl
      | cons s ss ih =>
        intro hs
        rw [bytesOf_cons, List.length_append, List.length_append, ih fun t ht => hs t (List.mem_cons_of_mem _ ht), hs s (by simp), List.length_cons, Nat.mul_succ]
        unfold fixedBody valsOf
        rw [List.filterMap_cons]
        cases s.val with
        | none => simp; omega
        | some v => simp; omega
    exact this _ fun s hs => by rw [← c4]; exact (hg s hs).length
  have hbig : (bytesOf word fixedBody r.rows.flatten).length < 2 ^ 64 := by
    rw [hlen]
    unfold pageSize at hsize
    have := Nat.mul_le_mul_right r.rows.flatten.length c5
    omega
  have hsl := selected_scaled_length r.rows n k hk ranges hr
  have hsum : (batches.map (· * n)).sum ≤ (selected r.rows (scaled n ranges)).length := by
    rw [hsl]
    have : (batches.map (· * n)).sum = n * batches.sum := by
      clear hb
      induction batches with
      | nil => rfl
      | cons b bs ih => rw [List.map_cons, List.sum_cons, ih, List.sum_cons, Nat.mul_add, Nat.mul_comm b]
    rw [this]
    exact Nat.mul_le_mul_left n hb.2
  have hsegne : ∀ seg ∈ segments r.rows (scaled n ranges), seg ≠ [] := by
    intro seg hseg e
    unfold segments scaled at hseg
    rw [List.map_map] at hseg
    obtain ⟨x, hx, hx2⟩ := List.mem_map.mp hseg
    obtain ⟨x1, x2⟩ := rangesOk_mem _ _ _ hr x hx
    rw [← hx2] at e
    have := congrArg List.length e
    simp only [Function.comp, List.length_take, List.length_drop, List.length_nil, hk] at this
    have y1 : x.2 * n ≤ n * k := by rw [Nat.mul_comm]; exact Nat.mul_le_mul_left n x2
    have y2 : x.1 * n < x.2 * n := Nat.mul_lt_mul_of_pos_right x1 hn
    omega
  have hsegrows : ∀ row ∈ (segments r.rows (scaled n ranges)).flatten, row ∈ r.rows := by
    intro row hrow
    rw [segments_flatten] at hrow
    unfold selected at hrow
    obtain ⟨x, _, hx⟩ := List.mem_flatMap.mp hrow
    exact List.mem_of_mem_drop (List.mem_of_mem_take hx)
  have hbatch := batchFixed_rows (maxRep := maxRepOf r.layers) (maxVis := maxVisibleZip r.layers) (dsc := dsc) (word := word) (n := n) hbpv hn r c2 c3
    (fun e => c6 (by rw [← c4]; exact e)) batches (segments r.rows (scaled n ranges)) hb.1 hsum hsegne
    (fun row hrow => ⟨c10 row (hsegrows row hrow), hw row (hsegrows row hrow)⟩)
  rw [segments_flatten] at hbatch
  by_cases hd : listDepth r.layers = 0
  · have hr0 : (Parser.new w.bitsRep w.bitsDef).hasRep = false := by rw [c2, hd]; rfl
    refine ⟨⟨w.bitsRep, w.bitsDef, r.layers, k, bytesOf word fixedBody r.rows.flatten, none⟩, ?_, ?_⟩
    · unfold writeFixed
      rw [c1]
      simp only
      rw [c9, hzip, c7, hd]
      have : ∀ l : List Nat, packIndex 0 l = [] := by
        intro l
        unfold packIndex packWidth
        rw [if_pos rfl]
        induction l with
        | nil => rfl
        | cons x l ih => rw [List.flatMap_cons, ih]; rfl
      simp [this, Rows.repDefs]
    · unfold readFixed
      simp only
      have hf : fetchSimple ⟨w.bitsRep, w.bitsDef, r.layers, k, bytesOf word fixedBody r.rows.flatten, none⟩ n (bpv + (Parser.new w.bitsRep w.bitsDef).size) ranges =
          some ((segments r.rows (scaled n ranges)).map fun seg => bytesOf word fixedBody seg.flatten) := by
        unfold fetchSimple segments scaled
        rw [List.map_map, List.map_map]
        refine mapM_some_map _ _ _ fun x hx => ?_
        obtain ⟨x1, x2⟩ := rangesOk_mem _ _ _ hr x hx
        have y1 : x.2 * n ≤ r.rows.length := by rw [hk, Nat.mul_comm]; exact Nat.mul_le_mul_left n x2
        have y2 : x.1 * n ≤ x.2 * n := Nat.mul_le_mul_right n (by omega)
        have hfl : ∀ i, i ≤ r.rows.length → (bytesOf word fixedBody (r.rows.take i).flatten).length = i * (bpv + (Parser.new w.bitsRep w.bitsDef).size) := by
          intro i hi
          rw [(flat_length hr0 (r.rows.take i) fun row hrow => ⟨c10 row (List.mem_of_mem_take hrow), hw row (List.mem_of_mem_take hrow)⟩).1,
            List.length_take, Nat.min_eq_left hi, Nat.add_comm bpv]
        simp only
        rw [← hfl _ (by omega), ← hfl _ y1, fetch_rows word fixedBody r.rows _ _ y2 y1]
        rfl
      rw [hf]
      exact hbatch
  · have hr1 : (Parser.new w.bitsRep w.bitsDef).hasRep = true := by rw [c2]; exact decide_eq_true hd
    have hw0 : 0 < w.bytesPerWord := by
      by_cases e : w.bytesPerWord = 0
      · exact absurd (c6 e).1 hd
      · omega
    have hpos : 0 < r.rows.flatten.length := by
      obtain ⟨row, hrow⟩ := List.exists_mem_of_ne_nil _ h.nonempty
      obtain ⟨s, cs, e, _⟩ := (c10 row hrow).shape
      exact List.length_pos_of_mem (List.mem_flatten.mpr ⟨row, hrow, by rw [e]; simp⟩ : s ∈ _)
    have hm0 : 0 < (bytesOf word fixedBody r.rows.flatten).length := by
      rw [hlen]
      have := Nat.mul_pos hw0 hpos
      omega
    have hne : packIndex (bytesOf word fixedBody r.rows.flatten).length (rowStarts word fixedBody r.rows 0) ≠ [] := by
      intro e
      have := congrArg List.length e
      unfold packIndex at this
      rw [packIndex_length, rowStarts_length, List.length_nil] at this
      have := Nat.mul_pos (packWidth_spec _ hm0 hbig).2.2 (show 0 < r.rows.length + 1 by omega)
      omega
    refine ⟨⟨w.bitsRep, w.bitsDef, r.layers, k, bytesOf word fixedBody r.rows.flatten,
      some (packIndex (bytesOf word fixedBody r.rows.flatten).length (rowStarts word fixedBody r.rows 0))⟩, ?_, ?_⟩
    · unfold writeFixed
      rw [c1]
      simp only
      rw [c9, hzip, c7, decide_eq_true hd, c8, ← hlen]
      simp only [Option.map_some, if_true]
      rw [if_neg hne]
      rfl
    · unfold readFixed
      simp only
      rw [fetchRep_rows _ n _ word fixedBody r.rows ranges hn hk hm0 hbig rfl (Nat.le_refl _) hr]
      exact hbatch

end Verif.Zip
