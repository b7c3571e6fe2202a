import Verif.Mini.LemmasMap
import Verif.Mini.LemmasDrain
/-!
# Mini-block pages: decoding the chunks of a batch
-/
namespace Verif.Mini

variable {V : Type}

/-- The first slot of a range of rows of a chunk, and the slot after the last. -/
def loOf (m : Nat) (s : List (Slot V)) (start : Nat) (action : Preamble) : Nat :=
  if action = .take then 0 else (split m s).1.length + ((split m s).2.take start).flatten.length

def hiOf (m : Nat) (s : List (Slot V)) (stop : Nat) : Nat :=
  (split m s).1.length + ((split m s).2.take stop).flatten.length

theorem take_hi (m : Nat) (s : List (Slot V)) (k : Nat) :
    s.take (hiOf m s k) = (split m s).1 ++ ((split m s).2.take k).flatten := by
  have h : s = ((split m s).1 ++ ((split m s).2.take k).flatten) ++ ((split m s).2.drop k).flatten := by
    rw [List.append_assoc, ← flatten_take_drop, split_flatten]
  have hl : hiOf m s k = ((split m s).1 ++ ((split m s).2.take k).flatten).length := by
    rw [List.length_append]; rfl
  exact (congrArg (List.take (hiOf m s k)) h).trans (List.take_left' hl.symm)

theorem hi_le (m : Nat) (s : List (Slot V)) (k : Nat) : hiOf m s k ≤ s.length := by
  have := congrArg List.length (split_flatten m s)
  rw [flatten_take_drop (split m s).2 k] at this
  simp only [List.length_append] at this
  unfold hiOf
  omega

theorem lo_eq (m : Nat) (s : List (Slot V)) (start : Nat) (action : Preamble) (h : action ≠ .take) :
    loOf m s start action = hiOf m s start := by
  unfold loOf hiOf; rw [if_neg h]

theorem hi_mono (m : Nat) (s : List (Slot V)) (a b : Nat) (h : a ≤ b) : hiOf m s a ≤ hiOf m s b := by
  unfold hiOf
  have := take_add_one_drop (split m s).2 a (b - a)
  rw [show a + (b - a) = b by omega] at this
  rw [this, List.length_append]
  omega

theorem lo_le (m : Nat) (s : List (Slot V)) (a b : Nat) (h : a ≤ b) (action : Preamble) :
    loOf m s a action ≤ hiOf m s b := by
  by_cases ht : action = .take
  · unfold loOf; rw [if_pos ht]; omega
  · rw [lo_eq m s a action ht]; exact hi_mono m s a b h

/-- The slots between the two are those of the rows (and of the preamble, if it is taken). -/
theorem slots_between (m : Nat) (s : List (Slot V)) (a n : Nat) (action : Preamble)
    (ht : action = .take → a = 0) :
    (s.drop (loOf m s a action)).take (hiOf m s (a + n) - loOf m s a action) =
      (if action = .take then (split m s).1 else []) ++ (((split m s).2.drop a).take n).flatten := by
  rw [← List.drop_take, take_hi]
  by_cases hc : action = .take
  · have h0 := ht hc
    subst h0
    unfold loOf
    rw [if_pos hc, if_pos hc]
    simp
  · rw [if_neg hc, lo_eq m s a action hc, take_add_one_drop, ← List.append_assoc, List.nil_append]
    rw [List.drop_left' (by rw [List.length_append]; rfl)]

theorem nv_visible (s : List (Slot V)) (h : ninv s = 0) : nv s = s.length := by
  have := nv_add_ninv s
  omega

theorem ninv_zero {mv : Nat} (s : List (Slot V)) (hv : ∀ t ∈ s, t.val.isSome = true ↔ t.dfn ≤ mv)
    (hd : ∀ t ∈ s, t.dfn = 0) : ninv s = 0 := by
  rw [ninv, List.countP_eq_zero]
  intro x hx hc
  have := (hv x hx).mpr (by rw [hd x hx]; omega)
  cases h : x.val <;> simp [h] at hc this

theorem ninv_le_of_sub (a b : List (Slot V)) (h : ninv (a ++ b) = 0) : ninv a = 0 := by
  rw [ninv_append] at h; omega

theorem rows_le_flatten (m : Nat) (rows : List (List (Slot V))) (h : ∀ r ∈ rows, IsRow m r) :
    rows.length ≤ rows.flatten.length := by
  induction rows with
  | nil => simp
  | cons r rs ih =>
    have hr := h r List.mem_cons_self
    have := ih fun x hx => h x (List.mem_cons_of_mem _ hx)
    cases r with
    | nil => exact absurd hr (by simp [IsRow])
    | cons x t =>
      rw [List.flatten_cons, List.length_append, List.length_cons, List.length_cons]
      omega

theorem zip_map_lv (s : List (Slot V)) : (s.map Slot.rep).zip (s.map Slot.dfn) = s.map lv := by
  rw [List.zip_map']; rfl

theorem map_lv_zero (s : List (Slot V)) (hd : ∀ t ∈ s, t.dfn = 0) :
    (s.map Slot.rep).map (fun r => (r, 0)) = s.map lv := by
  rw [List.map_map]
  apply List.map_congr_left
  intro t ht
  simp [lv, hd t ht]

/-- `map_range` on a chunk of a list column finds the slots of the rows asked for. -/
theorem mapRange_list (m mv : Nat) (s : List (Slot V)) (hv : ChunkOk m mv s) (withDefs : Bool)
    (hd : withDefs = false → ∀ t ∈ s, t.dfn = 0) (start n : Nat) (action : Preamble)
    (hfit : start + n ≤ (split m s).2.length) (ht : action = .take → start = 0)
    (hs : action ≠ .take → 0 < n) (ha : action = .absent ↔ (split m s).1 = []) :
    mapRange start (start + n) (some (s.map Slot.rep)) (if withDefs then some (s.map Slot.dfn) else none) m mv
        (nv s) action =
      some ((nv (s.take (loOf m s start action)), nv (s.take (hiOf m s (start + n)))),
        (loOf m s start action, hiOf m s (start + n))) := by
  have hlev : levelPairs (s.map Slot.rep) (if withDefs then some (s.map Slot.dfn) else none) = s.map lv := by
    cases withDefs with
    | true => exact zip_map_lv s
    | false => exact map_lv_zero s (hd rfl)
  have hpre := split_pre m s
  have hrows := split_rows m s
  have hflat := split_flatten m s
  have hvp : ChunkOk m mv (split m s).1 := hv.sub fun x hx => by
    rw [← hflat]; exact List.mem_append_left _ hx
  have hvr : ChunkOk m mv (split m s).2.flatten := hv.sub fun x hx => by
    rw [← hflat]; exact List.mem_append_right _ hx
  have hnp : nv (split m s).1 = (split m s).1.length := nv_visible _ (ninv_tail hvp hpre)
  have hfirst : (if action = .absent then (some 0, 0) else firstRow m mv (s.map lv) 0 0) =
      (if (split m s).2 = [] then (none : Option Nat) else some (split m s).1.length, (split m s).1.length) := by
    by_cases hab : action = .absent
    · have hp := ha.mp hab
      rw [if_pos hab]
      have hn := hs (by rw [hab]; simp)
      have : (split m s).2 ≠ [] := by intro hc; rw [hc] at hfit; simp at hfit; omega
      rw [if_neg this, hp]
      rfl
    · rw [if_neg hab]
      have := firstRow_ok m mv (split m s).1 (split m s).2 hpre hvp hrows
      rw [hflat] at this
      exact this
  unfold mapRange
  simp only [hlev, hfirst]
  by_cases hr0 : (split m s).2 = []
  · rw [if_pos hr0]
    have hact : action = .take := by
      apply Classical.byContradiction
      intro hc
      have := hs hc
      rw [hr0] at hfit
      simp at hfit
      omega
    simp only [hact, if_true]
    have hss : (split m s).1 = s := by rw [hr0] at hflat; simpa using hflat
    have hlo : loOf m s start .take = 0 := by simp [loOf]
    have hhi : hiOf m s (start + n) = s.length := by
      unfold hiOf; rw [hr0, hss]; simp
    rw [hlo, hhi, List.length_map]
    simp [nv, valsOf]
  · rw [if_neg hr0]
    simp only
    have hnv : ∀ k, nv (s.take (hiOf m s k)) = (split m s).1.length + nv ((split m s).2.take k).flatten := by
      intro k; rw [take_hi, nv_append, hnp]
    have hnlo : nv (s.take (loOf m s start action)) =
        if action = .take then 0 else (split m s).1.length + nv ((split m s).2.take start).flatten := by
      by_cases hc : action = .take
      · rw [if_pos hc]; unfold loOf; rw [if_pos hc]; simp [nv, valsOf]
      · rw [if_neg hc, lo_eq m s start action hc, hnv]
    by_cases hn : n = 0
    · subst hn
      have hact : action = .take := by
        apply Classical.byContradiction
        intro hc
        have := hs hc
        omega
      have h0 := ht hact
      subst h0
      rw [if_pos rfl, hnlo, hnv, if_pos hact]
      unfold loOf hiOf
      rw [if_pos hact]
      simp [nv, valsOf]
    · rw [if_neg (by omega), if_neg (by omega)]
      have hdr : ∀ (f : Slot V → Nat), (s.map f).drop (split m s).1.length = (split m s).2.flatten.map f := by
        intro f
        rw [← List.map_drop]
        congr 1
        conv => lhs; rw [← hflat]
        rw [List.drop_left' (by rw [hflat])]
      have hap : action = .absent → (split m s).1.length = 0 := fun h => by rw [ha.mp h]; rfl
      cases withDefs with
      | true =>
        simp only [if_true]
        rw [hdr, hdr, zip_map_lv]
        rw [mapDef_ok m mv (split m s).2 hrows hvr start (start + n) _ (by omega) hfit action ht hap]
        rw [hnlo, hnv]
        rfl
      | false =>
        simp only [Bool.false_eq_true, if_false]
        rw [hdr]
        have hz : ninv s = 0 := ninv_zero s hv.vis (hd rfl)
        have hzr : ninv (split m s).2.flatten = 0 := by
          rw [← hflat, ninv_append] at hz; omega
        have hzk : ∀ k, nv ((split m s).2.take k).flatten = ((split m s).2.take k).flatten.length := by
          intro k
          apply nv_visible
          rw [flatten_take_drop _ k] at hzr
          exact ninv_le_of_sub _ _ hzr
        have hle : (split m s).2.length ≤ nv s := by
          rw [nv_visible s hz]
          have := rows_le_flatten m _ hrows
          have h2 := congrArg List.length hflat
          rw [List.length_append] at h2
          omega
        rw [mapRep_ok m (split m s).2 hrows start (start + n) _ _ (by omega) hfit hle action ht hap]
        rw [hnlo, hnv, hzk, hzk]
        rfl

theorem split_flat (s : List (Slot V)) (h : ∀ t ∈ s, t.rep = 0) : split 0 s = ([], s.map fun t => [t]) := by
  induction s with
  | nil => rfl
  | cons t s ih =>
    have ht := h t List.mem_cons_self
    rw [split, ih fun x hx => h x (List.mem_cons_of_mem _ hx), if_pos ht]
    rfl

theorem flatten_singletons (s : List (Slot V)) : (s.map fun t => [t]).flatten = s := by
  induction s with
  | nil => rfl
  | cons t s ih => simp [ih]

theorem hi_flat (s : List (Slot V)) (h : ∀ t ∈ s, t.rep = 0) (k : Nat) (hk : k ≤ s.length) : hiOf 0 s k = k := by
  unfold hiOf
  rw [split_flat s h, ← List.map_take, flatten_singletons, List.length_take]
  simp only [List.length_nil]
  omega

/-- `map_range` on a chunk of a column without lists. -/
theorem mapRange_flat (mv : Nat) (s : List (Slot V)) (h : ∀ t ∈ s, t.rep = 0) (hvis : ∀ t ∈ s, t.val.isSome = true)
    (defs : Option (List Nat)) (start n total : Nat) (action : Preamble)
    (hfit : start + n ≤ (split 0 s).2.length) (ha : action = .absent ↔ (split 0 s).1 = []) :
    mapRange start (start + n) none defs 0 mv total action =
      some ((nv (s.take (loOf 0 s start action)), nv (s.take (hiOf 0 s (start + n)))),
        (loOf 0 s start action, hiOf 0 s (start + n))) := by
  have hsp := split_flat s h
  rw [hsp] at hfit ha
  simp only [List.length_map] at hfit
  have hab : action = .absent := ha.mpr rfl
  have hz : ∀ k, nv (s.take k) = min k s.length := by
    intro k
    rw [nv_visible, List.length_take]
    rw [ninv, List.countP_eq_zero]
    intro x hx hc
    have := hvis x (List.mem_of_mem_take hx)
    cases hq : x.val <;> simp [hq] at hc this
  rw [lo_eq 0 s start action (by rw [hab]; simp), hi_flat s h start (by omega), hi_flat s h _ hfit, hz, hz]
  rw [Nat.min_eq_left (by omega), Nat.min_eq_left hfit]
  rfl

/-! ### A batch -/

/-- Levels that are there or not. -/
def opt (b : Bool) (f : Slot V → Nat) (s : List (Slot V)) : Option (List Nat) := if b then some (s.map f) else none

theorem repsOf_eq (r : Rows V) (s : List (Slot V)) : repsOf r s = opt (decide (listDepth r.layers ≠ 0)) Slot.rep s := by
  unfold repsOf opt
  by_cases h : listDepth r.layers = 0 <;> simp [h]

theorem defsOf_eq (r : Rows V) (s : List (Slot V)) : defsOf r s = opt r.withDefs Slot.dfn s := rfl

theorem extendLevels_ok (b : Bool) (f : Slot V → Nat) (acc s : List (Slot V)) (lo hi off : Nat) (h1 : lo ≤ hi)
    (h2 : hi ≤ s.length) :
    extendLevels (lo, hi) (opt b f acc) (opt b f s) off = some (opt b f (acc ++ (s.drop lo).take (hi - lo))) := by
  cases b with
  | false => rfl
  | true =>
    simp only [opt, if_true, extendLevels, slice, List.length_map]
    rw [if_pos ⟨h1, h2⟩]
    simp [List.map_take, List.map_drop]

theorem extendLevels_first (b : Bool) (f : Slot V → Nat) (s : List (Slot V)) (lo hi : Nat) (h1 : lo ≤ hi)
    (h2 : hi ≤ s.length) :
    extendLevels (lo, hi) none (opt b f s) 0 = some (opt b f ((s.drop lo).take (hi - lo))) := by
  cases b with
  | false => rfl
  | true =>
    simp only [opt, if_true, extendLevels, slice, List.length_map]
    rw [if_pos ⟨h1, h2⟩]
    simp [List.map_take, List.map_drop]

theorem slice_vals (s : List (Slot V)) (lo hi : Nat) (h1 : lo ≤ hi) :
    slice (valsOf s) (nv (s.take lo), nv (s.take hi)) = some (valsOf ((s.drop lo).take (hi - lo))) := by
  have e1 : s.take hi = s.take lo ++ (s.drop lo).take (hi - lo) := by
    have := List.take_add (l := s) (i := lo) (j := hi - lo)
    rwa [show lo + (hi - lo) = hi by omega] at this
  have e2 : valsOf s = valsOf (s.take hi) ++ valsOf (s.drop hi) := by
    rw [← valsOf_append, List.take_append_drop]
  have hle : nv (s.take lo) ≤ nv (s.take hi) := by rw [e1, nv_append]; omega
  unfold slice
  rw [if_pos ⟨hle, by rw [e2, List.length_append]; exact Nat.le_add_right _ _⟩]
  simp only
  rw [← List.drop_take, e2, List.take_left' (show (valsOf (s.take hi)).length = nv (s.take hi) from rfl), e1,
    valsOf_append, List.drop_left' (show (valsOf (s.take lo)).length = nv (s.take lo) from rfl)]

/-- A chunk that was loaded decodes to the levels and values of its slots. -/
def LoadedOk (codec : Codec V) (p : Page) (r : Rows V) (S : List (List (Slot V))) (c : Loaded) : Prop :=
  c.items = nv (slotsAt S c.chunk) ∧
    decodeChunk codec p.repFlat p.defFlat c.data c.items =
      some (repsOf r (slotsAt S c.chunk), defsOf r (slotsAt S c.chunk), valsOf (slotsAt S c.chunk))

/-- The slots are such as `RowsOk` and `FlatLists` say. -/
structure SlotsOk (r : Rows V) (s : List (Slot V)) : Prop where
  ok : ∀ t ∈ s, SlotOk r t ∧ t.rep ≤ listDepth r.layers
  flat : ∀ t ∈ s, t.val = none → t.rep = listDepth r.layers

theorem maxRepOf_eq (layers : List Layer) : maxRepOf layers = listDepth layers := by
  unfold maxRepOf listDepth; rw [List.countP_eq_length_filter]

theorem maxVisibleRead_eq (layers : List Layer) : maxVisibleRead layers = innerLevels layers := by
  induction layers with
  | nil => rfl
  | cons l ls ih =>
    unfold maxVisibleRead at *
    cases h : l.isList
    · simp only [List.takeWhile_cons, h, Bool.not_false, if_true, List.map_cons, List.sum_cons]
      rw [ih]; simp [innerLevels, h]
    · simp [h, innerLevels]

theorem slotsAt_mem (S : List (List (Slot V))) (k : Nat) : ∀ t ∈ slotsAt S k, t ∈ S.flatten := by
  intro t ht
  unfold slotsAt at ht
  by_cases h : k < S.length
  · rw [List.getD_eq_getElem?_getD, List.getElem?_eq_getElem h] at ht
    exact List.mem_flatten.mpr ⟨_, List.getElem_mem h, ht⟩
  · rw [List.getD_eq_getElem?_getD, List.getElem?_eq_none (by omega)] at ht
    simp at ht

theorem mapRange_ok (r : Rows V) (S : List (List (Slot V))) (hS : SlotsOk r S.flatten) (d : Drain)
    (hd : DrainOk (listDepth r.layers) S d) :
    let m := listDepth r.layers
    let s := slotsAt S d.instr.chunk
    let start := d.skip + d.instr.skip
    mapRange start (start + d.take) (repsOf r s) (defsOf r s) m (innerLevels r.layers) (nv s) d.preamble =
      some ((nv (s.take (loOf m s start d.preamble)), nv (s.take (hiOf m s (start + d.take)))),
        (loOf m s start d.preamble, hiOf m s (start + d.take))) := by
  intro m s start
  have hm := slotsAt_mem S d.instr.chunk
  by_cases h0 : listDepth r.layers = 0
  · have hr : repsOf r s = none := by unfold repsOf; rw [if_pos h0]
    rw [hr]
    have hm0 : m = 0 := h0
    rw [hm0]
    have hfit := hd.fits
    have hab := hd.absent
    rw [h0] at hfit hab
    refine mapRange_flat _ s ?_ ?_ _ start d.take _ d.preamble hfit hab
    · intro t ht
      have := (hS.ok t (hm t ht)).2
      omega
    · intro t ht
      exact (hS.ok t (hm t ht)).1.1.mpr (Or.inl h0)
  · have hr : repsOf r s = some (s.map Slot.rep) := by unfold repsOf; rw [if_neg h0]
    rw [hr]
    refine mapRange_list m _ s ⟨?_, ?_⟩ r.withDefs ?_ start d.take d.preamble hd.fits hd.take hd.some hd.absent
    · intro t ht
      have := (hS.ok t (hm t ht)).1.1
      simp only [h0, false_or] at this
      exact this
    · intro t ht hv
      exact hS.flat t (hm t ht) hv
    · intro hw t ht
      exact (hS.ok t (hm t ht)).1.2.1 hw

theorem seg_eq (m : Nat) (S : List (List (Slot V))) (d : Drain) (hd : DrainOk m S d) :
    seg m S d = ((slotsAt S d.instr.chunk).drop (loOf m (slotsAt S d.instr.chunk) (d.skip + d.instr.skip) d.preamble)).take
      (hiOf m (slotsAt S d.instr.chunk) (d.skip + d.instr.skip + d.take)
        - loOf m (slotsAt S d.instr.chunk) (d.skip + d.instr.skip) d.preamble) := by
  rw [slots_between m _ _ _ _ hd.take]
  rfl

theorem decodeLoop_ok (codec : Codec V) (p : Page) (r : Rows V) (hp : p.layers = r.layers)
    (S : List (List (Slot V))) (hS : SlotsOk r S.flatten) (task : List (Drain × Loaded))
    (ht : ∀ t ∈ task, DrainOk (listDepth r.layers) S t.1 ∧ LoadedOk codec p r S t.2 ∧ t.2.chunk = t.1.instr.chunk)
    (acc : List (Slot V)) (off : Nat) :
    decodeLoop codec p task ⟨repsOf r acc, defsOf r acc, valsOf acc⟩ off =
      some ⟨repsOf r (acc ++ (task.map fun t => seg (listDepth r.layers) S t.1).flatten),
        defsOf r (acc ++ (task.map fun t => seg (listDepth r.layers) S t.1).flatten),
        valsOf (acc ++ (task.map fun t => seg (listDepth r.layers) S t.1).flatten)⟩ := by
  induction task generalizing acc off with
  | nil => simp [decodeLoop]
  | cons t rest ih =>
    obtain ⟨d, c⟩ := t
    obtain ⟨hd, ⟨hci, hcd⟩, hck⟩ := ht (d, c) List.mem_cons_self
    simp only at hd hci hcd hck
    rw [hck] at hci hcd
    have hmr := mapRange_ok r S hS d hd
    simp only at hmr
    have hsg := seg_eq _ S d hd
    have hlo := lo_le (listDepth r.layers) (slotsAt S d.instr.chunk) (d.skip + d.instr.skip)
      (d.skip + d.instr.skip + d.take) (by omega) d.preamble
    have hhi := hi_le (listDepth r.layers) (slotsAt S d.instr.chunk) (d.skip + d.instr.skip + d.take)
    rw [decodeLoop, hcd]
    simp only
    rw [hp, maxRepOf_eq, maxVisibleRead_eq, hci, hmr]
    simp only
    rw [repsOf_eq, repsOf_eq, defsOf_eq, defsOf_eq, extendLevels_ok _ _ _ _ _ _ _ hlo hhi,
      extendLevels_ok _ _ _ _ _ _ _ hlo hhi, slice_vals _ _ _ hlo, ← hsg]
    simp only
    rw [← repsOf_eq, ← defsOf_eq, ← valsOf_append]
    rw [ih (fun t h => ht t (List.mem_cons_of_mem _ h))]
    simp only [List.map_cons, List.flatten_cons, List.append_assoc]

theorem decodeTask_ok (codec : Codec V) (p : Page) (r : Rows V) (hp : p.layers = r.layers)
    (S : List (List (Slot V))) (hS : SlotsOk r S.flatten) (task : List (Drain × Loaded)) (hne : task ≠ [])
    (ht : ∀ t ∈ task, DrainOk (listDepth r.layers) S t.1 ∧ LoadedOk codec p r S t.2 ∧ t.2.chunk = t.1.instr.chunk) :
    decodeTask codec p task =
      some ⟨repsOf r (task.map fun t => seg (listDepth r.layers) S t.1).flatten,
        defsOf r (task.map fun t => seg (listDepth r.layers) S t.1).flatten,
        valsOf (task.map fun t => seg (listDepth r.layers) S t.1).flatten⟩ := by
  unfold decodeTask
  rw [if_neg hne]
  cases task with
  | nil => exact absurd rfl hne
  | cons t rest =>
    obtain ⟨d, c⟩ := t
    obtain ⟨hd, ⟨hci, hcd⟩, hck⟩ := ht (d, c) List.mem_cons_self
    simp only at hd hci hcd hck
    rw [hck] at hci hcd
    have hmr := mapRange_ok r S hS d hd
    simp only at hmr
    have hsg := seg_eq _ S d hd
    have hlo := lo_le (listDepth r.layers) (slotsAt S d.instr.chunk) (d.skip + d.instr.skip)
      (d.skip + d.instr.skip + d.take) (by omega) d.preamble
    have hhi := hi_le (listDepth r.layers) (slotsAt S d.instr.chunk) (d.skip + d.instr.skip + d.take)
    rw [decodeLoop, hcd]
    simp only
    rw [hp, maxRepOf_eq, maxVisibleRead_eq, hci, hmr]
    simp only
    rw [repsOf_eq, defsOf_eq, extendLevels_first _ _ _ _ _ hlo hhi,
      extendLevels_first _ _ _ _ _ hlo hhi, slice_vals _ _ _ hlo, ← hsg]
    simp only
    rw [← repsOf_eq, ← defsOf_eq, List.nil_append]
    rw [decodeLoop_ok codec p r hp S hS rest (fun t h => ht t (List.mem_cons_of_mem _ h))]
    simp only [List.map_cons, List.flatten_cons]

/-- All batches. -/
theorem batchLoop_ok (codec : Codec V) (p : Page) (r : Rows V) (hp : p.layers = r.layers)
    (S : List (List (Slot V))) (hS : SlotsOk r S.flatten)
    (hsmall : ∀ k, (rowsAt (listDepth r.layers) S k).length < 2 ^ 64) (batches : List Nat)
    (hb : ∀ b ∈ batches, 0 < b) :
    ∀ (is : List Instr) (ls : List Loaded) (s : Nat),
      WFI (listDepth r.layers) S false (shiftHead s is) → (∀ i ∈ is, i.take < 2 ^ 64) → s < 2 ^ 64 → LsOk ls is →
      (∀ c ∈ ls, LoadedOk codec p r S c) →
      batches.sum ≤ (den (listDepth r.layers) S (shiftHead s is)).2.length →
      batchLoop codec p batches is ls s =
        some ((inBatches batches (den (listDepth r.layers) S (shiftHead s is)).2).map (expected r)) := by
  induction batches with
  | nil => intro is ls s _ _ _ _ _ _; rfl
  | cons n rest ih =>
    intro is ls s hwf hit hs hls hld hsum
    rw [List.sum_cons] at hsum
    obtain ⟨task, is', ls', s', h1, h2, h3, h4, h5, h6, h7, h8, h9, h10⟩ :=
      drainLoop_ok (listDepth r.layers) S hsmall is ls n false s hwf hit hs hls (by omega)
    rw [batchLoop, h1]
    simp only
    rw [decodeTask_ok codec p r hp S hS task (h10 (hb n List.mem_cons_self))
      (fun t ht => ⟨(h8 t ht).1, hld _ (h8 t ht).2.1, (h8 t ht).2.2⟩)]
    rw [ih (fun b h => hb b (List.mem_cons_of_mem _ h)) is' ls' s' h4 h5 h6 h7 (fun c hc => hld c (h9 c hc))
      (by rw [h3, List.length_drop]; omega)]
    simp only
    rw [h3, h2]
    simp [inBatches, expected]

end Verif.Mini
