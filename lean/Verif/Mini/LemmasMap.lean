import Verif.Mini.LemmasSplit
/-!
# Mini-block pages: the items and levels of a range of rows of a chunk
-/
namespace Verif.Mini

variable {V : Type}

def lv (t : Slot V) : Nat × Nat := (t.rep, t.dfn)

/-- The number of slots with a value, and without. -/
def nv (l : List (Slot V)) : Nat := (valsOf l).length
def ninv (l : List (Slot V)) : Nat := l.countP (fun t => t.val.isNone)

theorem valsOf_append (a b : List (Slot V)) : valsOf (a ++ b) = valsOf a ++ valsOf b := by
  simp [valsOf, List.filterMap_append]

theorem nv_append (a b : List (Slot V)) : nv (a ++ b) = nv a + nv b := by simp [nv, valsOf_append]

theorem ninv_append (a b : List (Slot V)) : ninv (a ++ b) = ninv a + ninv b := by simp [ninv]

theorem nv_add_ninv (l : List (Slot V)) : nv l + ninv l = l.length := by
  induction l with
  | nil => rfl
  | cons t l ih =>
    have h1 : nv (t :: l) = nv [t] + nv l := nv_append [t] l
    have h2 : ninv (t :: l) = ninv [t] + ninv l := ninv_append [t] l
    have h3 : nv [t] + ninv [t] = 1 := by
      cases h : t.val <;> simp [nv, ninv, valsOf, h]
    rw [h1, h2, List.length_cons]
    omega

/-- The slots of a chunk of a list column: a slot has a value if its definition level is low, and one
without a value starts a row. -/
structure ChunkOk (m mv : Nat) (s : List (Slot V)) : Prop where
  vis : ∀ t ∈ s, t.val.isSome = true ↔ t.dfn ≤ mv
  flat : ∀ t ∈ s, t.val = none → t.rep = m

theorem ChunkOk.sub {m mv : Nat} {s t : List (Slot V)} (h : ChunkOk m mv s) (hs : ∀ x ∈ t, x ∈ s) :
    ChunkOk m mv t := ⟨fun x hx => h.vis x (hs x hx), fun x hx => h.flat x (hs x hx)⟩

theorem ninv_tail {m mv : Nat} {t : List (Slot V)} (h : ChunkOk m mv t) (ht : ∀ x ∈ t, x.rep ≠ m) : ninv t = 0 := by
  rw [ninv, List.countP_eq_zero]
  intro x hx hc
  have : x.val = none := by simpa using hc
  exact ht x hx (h.flat x hx this)

theorem ninv_one {m mv : Nat} {x : Slot V} {s : List (Slot V)} (h : ChunkOk m mv s) (hx : x ∈ s) :
    ninv [x] = if mv < x.dfn then 1 else 0 := by
  have := h.vis x hx
  cases hv : x.val with
  | none =>
    rw [hv] at this
    have hn : ¬ x.dfn ≤ mv := fun hc => by simpa using this.mpr hc
    rw [if_pos (by omega)]
    simp [ninv, hv]
  | some v =>
    rw [hv] at this
    have hn : x.dfn ≤ mv := this.mp rfl
    rw [if_neg (by omega)]
    simp [ninv, hv]

theorem firstRow_tail (m mv : Nat) (t X : List (Slot V)) (ht : ∀ x ∈ t, x.rep ≠ m) (hv : ChunkOk m mv t)
    (idx items : Nat) :
    firstRow m mv ((t ++ X).map lv) idx items = firstRow m mv (X.map lv) (idx + t.length) (items + t.length) := by
  induction t generalizing idx items with
  | nil => simp
  | cons x t ih =>
    have hx := ht x List.mem_cons_self
    have hxv : x.dfn ≤ mv := by
      rw [← hv.vis x List.mem_cons_self]
      cases h : x.val with
      | none => exact absurd (hv.flat x List.mem_cons_self h) hx
      | some v => rfl
    simp only [List.cons_append, List.map_cons, firstRow, lv]
    rw [if_neg hx, if_pos hxv]
    have := ih (fun y hy => ht y (List.mem_cons_of_mem _ hy)) (hv.sub fun y hy => List.mem_cons_of_mem _ hy)
      (idx + 1) (items + 1)
    rw [this, List.length_cons]
    congr 1 <;> omega

theorem firstRow_ok (m mv : Nat) (pre : List (Slot V)) (rows : List (List (Slot V)))
    (hp : ∀ x ∈ pre, x.rep ≠ m) (hv : ChunkOk m mv pre) (hr : ∀ r ∈ rows, IsRow m r) :
    firstRow m mv ((pre ++ rows.flatten).map lv) 0 0 =
      (if rows = [] then none else some pre.length, pre.length) := by
  rw [firstRow_tail m mv pre _ hp hv]
  simp only [Nat.zero_add]
  cases rows with
  | nil => simp [firstRow]
  | cons r rs =>
    have := hr r List.mem_cons_self
    cases r with
    | nil => exact absurd this (by simp [IsRow])
    | cons x t => simp [firstRow, lv, this.1]

theorem leadLoop_tail (m mv start : Nat) (t X : List (Slot V)) (ht : ∀ x ∈ t, x.rep ≠ m) (idx rows lead : Nat) :
    leadLoop m mv start ((t ++ X).map lv) idx rows lead
      = leadLoop m mv start (X.map lv) (idx + t.length) rows lead := by
  induction t generalizing idx with
  | nil => simp
  | cons x t ih =>
    simp only [List.cons_append, List.map_cons, lv]
    rw [leadLoop, if_neg (ht x List.mem_cons_self)]
    rw [ih (fun y hy => ht y (List.mem_cons_of_mem _ hy)), List.length_cons]
    congr 1; omega

theorem tailLoop_tail (m mv stop ns nl : Nat) (t X : List (Slot V)) (ht : ∀ x ∈ t, x.rep ≠ m)
    (idx rows tail : Nat) :
    tailLoop m mv stop ns nl ((t ++ X).map lv) idx rows tail
      = tailLoop m mv stop ns nl (X.map lv) (idx + t.length) rows tail := by
  induction t generalizing idx with
  | nil => simp
  | cons x t ih =>
    simp only [List.cons_append, List.map_cons, lv]
    rw [tailLoop, if_neg (ht x List.mem_cons_self)]
    rw [ih (fun y hy => ht y (List.mem_cons_of_mem _ hy)), List.length_cons]
    congr 1; omega

theorem rowLoop_tail (m target : Nat) (t X : List (Slot V)) (ht : ∀ x ∈ t, x.rep ≠ m) (idx rows : Nat) :
    rowLoop m target ((t ++ X).map Slot.rep) idx rows = rowLoop m target (X.map Slot.rep) (idx + t.length) rows := by
  induction t generalizing idx with
  | nil => simp
  | cons x t ih =>
    simp only [List.cons_append, List.map_cons]
    rw [rowLoop, if_neg (ht x List.mem_cons_self), ih (fun y hy => ht y (List.mem_cons_of_mem _ hy)), List.length_cons]
    congr 1; omega

theorem ninv_row {m mv : Nat} {x : Slot V} {t : List (Slot V)} (hv : ChunkOk m mv (x :: t))
    (hr : IsRow m (x :: t)) : ninv (x :: t) = if mv < x.dfn then 1 else 0 := by
  have h1 : ninv (x :: t) = ninv [x] + ninv t := ninv_append [x] t
  rw [h1, ninv_tail (hv.sub fun y hy => List.mem_cons_of_mem _ hy) hr.2, ninv_one hv List.mem_cons_self]
  rfl

theorem leadLoop_rows (m mv : Nat) (rs : List (List (Slot V))) (hr : ∀ r ∈ rs, IsRow m r)
    (hv : ChunkOk m mv rs.flatten) (n : Nat) (hn : n < rs.length) (idx rows lead : Nat) :
    leadLoop m mv (rows + n + 1) (rs.flatten.map lv) idx rows lead =
      (rows + n + 1, lead + ninv (rs.take n).flatten,
        idx + (rs.take n).flatten.length + 1 - (lead + ninv (rs.take n).flatten),
        idx + (rs.take n).flatten.length + 1) := by
  induction rs generalizing n idx rows lead with
  | nil => simp at hn
  | cons r rs ih =>
    have hrr := hr r List.mem_cons_self
    cases r with
    | nil => exact absurd hrr (by simp [IsRow])
    | cons x t =>
      have hvr : ChunkOk m mv (x :: t) := hv.sub fun y hy => by
        rw [List.flatten_cons]; exact List.mem_append_left _ hy
      have hinv := ninv_row hvr hrr
      rw [List.flatten_cons, List.cons_append, List.map_cons]
      have hlv : lv x = (x.rep, x.dfn) := rfl
      rw [hlv, leadLoop, if_pos hrr.1]
      cases n with
      | zero =>
        rw [if_pos rfl]
        simp [ninv]
      | succ n =>
        rw [if_neg (by omega)]
        rw [leadLoop_tail m mv _ t _ hrr.2]
        have := ih (fun y hy => hr y (List.mem_cons_of_mem _ hy)) (hv.sub fun y hy => by
          rw [List.flatten_cons]; exact List.mem_append_right _ hy) n (by simpa using hn)
          (idx + 1 + t.length) (rows + 1) (if x.dfn > mv then lead + 1 else lead)
        rw [show rows + (n + 1) + 1 = rows + 1 + n + 1 by omega, this]
        rw [List.take_succ_cons, List.flatten_cons, ninv_append, hinv, List.length_append, List.length_cons]
        by_cases hd : mv < x.dfn
        · simp only [gt_iff_lt, hd, ↓reduceIte, Prod.mk.injEq, true_and, and_true]; omega
        · simp only [gt_iff_lt, hd, ↓reduceIte, Prod.mk.injEq, true_and, and_true]; omega

theorem tailLoop_rows (m mv ns nl : Nat) (rs : List (List (Slot V))) (hr : ∀ r ∈ rs, IsRow m r)
    (hv : ChunkOk m mv rs.flatten) (n : Nat) (idx rows tail : Nat) :
    tailLoop m mv (rows + n) ns nl (rs.flatten.map lv) idx rows tail =
      if n < rs.length then
        (some (idx + (rs.take n).flatten.length + ns + 1 - (tail + ninv (rs.take n).flatten),
          idx + (rs.take n).flatten.length + nl + 1), tail + ninv (rs.take n).flatten)
      else (none, tail + ninv rs.flatten) := by
  induction rs generalizing n idx rows tail with
  | nil => simp [tailLoop, ninv]
  | cons r rs ih =>
    have hrr := hr r List.mem_cons_self
    cases r with
    | nil => exact absurd hrr (by simp [IsRow])
    | cons x t =>
      have hvr : ChunkOk m mv (x :: t) := hv.sub fun y hy => by
        rw [List.flatten_cons]; exact List.mem_append_left _ hy
      have hinv := ninv_row hvr hrr
      rw [List.flatten_cons, List.cons_append, List.map_cons]
      have hlv : lv x = (x.rep, x.dfn) := rfl
      rw [hlv, tailLoop, if_pos hrr.1]
      cases n with
      | zero =>
        rw [if_pos rfl, if_pos (by simp)]
        simp [ninv]
      | succ n =>
        rw [if_neg (by omega)]
        rw [tailLoop_tail m mv _ _ _ t _ hrr.2]
        have := ih (fun y hy => hr y (List.mem_cons_of_mem _ hy)) (hv.sub fun y hy => by
          rw [List.flatten_cons]; exact List.mem_append_right _ hy) n
          (idx + 1 + t.length) (rows + 1) (if x.dfn > mv then tail + 1 else tail)
        rw [show rows + (n + 1) = rows + 1 + n by omega, this]
        have hsum : ninv (x :: (t ++ rs.flatten)) = ninv (x :: t) + ninv rs.flatten := by
          rw [← List.cons_append, ninv_append]
        rw [List.take_succ_cons, List.flatten_cons, ninv_append, hsum, hinv, List.length_append, List.length_cons,
          List.length_cons]
        by_cases hc : n < rs.length
        · rw [if_pos hc, if_pos (show n + 1 < rs.length + 1 by omega)]
          by_cases hd : mv < x.dfn
          · simp only [gt_iff_lt, hd, ↓reduceIte, Prod.mk.injEq, Option.some.injEq, true_and, and_true]; omega
          · simp only [gt_iff_lt, hd, ↓reduceIte, Prod.mk.injEq, Option.some.injEq, true_and, and_true]; omega
        · rw [if_neg hc, if_neg (show ¬ n + 1 < rs.length + 1 by omega)]
          by_cases hd : mv < x.dfn
          · simp only [gt_iff_lt, hd, ↓reduceIte, Prod.mk.injEq, true_and, and_true]; omega
          · simp only [gt_iff_lt, hd, ↓reduceIte, Prod.mk.injEq, true_and, and_true]; omega

theorem rowLoop_rows (m : Nat) (rs : List (List (Slot V))) (hr : ∀ r ∈ rs, IsRow m r) (n : Nat) (idx rows : Nat) :
    rowLoop m (rows + n + 1) (rs.flatten.map Slot.rep) idx rows =
      if n < rs.length then (some (idx + (rs.take n).flatten.length), rows + n + 1)
      else (none, rows + rs.length) := by
  induction rs generalizing n idx rows with
  | nil => simp [rowLoop]
  | cons r rs ih =>
    have hrr := hr r List.mem_cons_self
    cases r with
    | nil => exact absurd hrr (by simp [IsRow])
    | cons x t =>
      rw [List.flatten_cons, List.cons_append, List.map_cons]
      rw [rowLoop, if_pos hrr.1]
      cases n with
      | zero =>
        rw [if_pos rfl, if_pos (by simp)]
        simp
      | succ n =>
        rw [if_neg (by omega), rowLoop_tail m _ t _ hrr.2]
        have := ih (fun y hy => hr y (List.mem_cons_of_mem _ hy)) n (idx + 1 + t.length) (rows + 1)
        rw [show rows + (n + 1) + 1 = rows + 1 + n + 1 by omega, this]
        rw [List.take_succ_cons, List.flatten_cons, List.length_append, List.length_cons, List.length_cons]
        by_cases hc : n < rs.length
        · rw [if_pos hc, if_pos (show n + 1 < rs.length + 1 by omega)]
          simp only [Prod.mk.injEq, Option.some.injEq, true_and, and_true]; omega
        · rw [if_neg hc, if_neg (show ¬ n + 1 < rs.length + 1 by omega)]
          simp only [Prod.mk.injEq, true_and, and_true]; omega

/-- A row that is there, taken apart. -/
theorem rows_at {m : Nat} (rows : List (List (Slot V))) (hr : ∀ r ∈ rows, IsRow m r) (k : Nat) (h : k < rows.length) :
    ∃ x t, rows.drop k = (x :: t) :: rows.drop (k + 1) ∧ x.rep = m ∧ (∀ y ∈ t, y.rep ≠ m) ∧ (x :: t) ∈ rows := by
  have hd := List.drop_eq_getElem_cons h
  have hmem : rows[k] ∈ rows := List.getElem_mem h
  have hrow := hr _ hmem
  cases hk : rows[k] with
  | nil => rw [hk] at hrow; exact absurd hrow (by simp [IsRow])
  | cons x t =>
    rw [hk] at hrow hd hmem
    exact ⟨x, t, hd, hrow.1, hrow.2, hmem⟩

theorem flatten_take_drop (rows : List (List (Slot V))) (k : Nat) :
    rows.flatten = (rows.take k).flatten ++ (rows.drop k).flatten := by
  rw [← List.flatten_append, List.take_append_drop]

theorem take_add_one_drop (rows : List (List (Slot V))) (a n : Nat) :
    (rows.take (a + n)).flatten = (rows.take a).flatten ++ ((rows.drop a).take n).flatten := by
  rw [List.take_add, List.flatten_append]

theorem mapDef_ok (m mv : Nat) (rows : List (List (Slot V))) (hr : ∀ r ∈ rows, IsRow m r)
    (hv : ChunkOk m mv rows.flatten) (start stop frs : Nat) (h1 : start < stop) (h2 : stop ≤ rows.length)
    (action : Preamble) (ht : action = .take → start = 0) (ha : action = .absent → frs = 0) :
    mapDef start stop (rows.flatten.map lv) frs m mv action =
      some ((if action = .take then 0 else frs + nv (rows.take start).flatten,
          frs + nv (rows.take stop).flatten),
        (if action = .take then 0 else frs + (rows.take start).flatten.length,
          frs + (rows.take stop).flatten.length)) := by
  obtain ⟨x0, t0, hd0, hx0, ht0, _⟩ := rows_at rows hr 0 (by omega)
  rw [List.drop_zero] at hd0
  simp only [Nat.zero_add] at hd0
  have hrs : ∀ r ∈ rows.drop 1, IsRow m r := fun r h => hr r (List.mem_of_mem_drop h)
  have hvs : ∀ k, ChunkOk m mv (rows.drop k).flatten := fun k => hv.sub fun y hy => by
    rw [flatten_take_drop rows k]; exact List.mem_append_right _ hy
  have hv0 : ChunkOk m mv (x0 :: t0) := hv.sub fun y hy => by
    rw [hd0, List.flatten_cons]; exact List.mem_append_left _ hy
  have hflat : rows.flatten = x0 :: (t0 ++ (rows.drop 1).flatten) := by
    conv => lhs; rw [hd0]
    rfl
  -- where the range starts
  have hlead : (if 0 < start then leadLoop m mv start ((t0 ++ (rows.drop 1).flatten).map lv) 0 0
        (if x0.dfn > mv then 1 else 0) else (0, 0, 0, 0)) =
      (start, ninv (rows.take start).flatten, nv (rows.take start).flatten, (rows.take start).flatten.length) := by
    cases start with
    | zero => simp [ninv, nv, valsOf]
    | succ st =>
      rw [if_pos (by omega), leadLoop_tail m mv _ t0 _ ht0]
      have := leadLoop_rows m mv (rows.drop 1) hrs (hvs 1) st (by rw [List.length_drop]; omega) (0 + t0.length) 0
        (if x0.dfn > mv then 1 else 0)
      rw [show 0 + st + 1 = st + 1 by omega] at this
      rw [this]
      have hi := ninv_row hv0 ⟨hx0, ht0⟩
      have htk : (rows.take (st + 1)).flatten = (x0 :: t0) ++ ((rows.drop 1).take st).flatten := by
        conv => lhs; rw [hd0]
        rfl
      have hsum := nv_add_ninv (rows.take (st + 1)).flatten
      rw [htk] at hsum ⊢
      rw [ninv_append, List.length_append, List.length_cons] at hsum
      rw [ninv_append, hi, List.length_append, List.length_cons]
      rw [hi] at hsum
      by_cases hc : mv < x0.dfn
      · simp only [hc, if_true] at hsum
        simp only [gt_iff_lt, hc, if_true, Prod.mk.injEq]
        exact ⟨trivial, trivial, by omega, by omega⟩
      · simp only [hc, if_false] at hsum
        simp only [gt_iff_lt, hc, if_false, Prod.mk.injEq]
        exact ⟨trivial, trivial, by omega, by omega⟩
  -- where it stops
  obtain ⟨x, t, hd, hx, htt, hmem⟩ := rows_at rows hr start (by omega)
  have hvx : ChunkOk m mv (x :: t) := hv.sub fun y hy => List.mem_flatten.mpr ⟨_, hmem, hy⟩
  have hget : (rows.flatten.map lv)[(rows.take start).flatten.length]? = some (x.rep, x.dfn) := by
    have hc : rows.flatten.map lv = (rows.take start).flatten.map lv ++ (rows.drop start).flatten.map lv := by
      rw [← List.map_append, ← flatten_take_drop]
    have hl : ((rows.take start).flatten.map lv).length = (rows.take start).flatten.length := List.length_map _
    rw [hc, List.getElem?_append_right (by rw [hl]; exact Nat.le_refl _), hl, Nat.sub_self, hd]
    rfl
  have hdrop : (rows.flatten.map lv).drop ((rows.take start).flatten.length + 1)
      = (t ++ (rows.drop (start + 1)).flatten).map lv := by
    rw [← List.map_drop]
    congr 1
    rw [flatten_take_drop rows start, List.drop_append]
    rw [List.drop_eq_nil_of_le (by omega), hd]
    simp
  have hstop : tailLoop m mv stop (nv (rows.take start).flatten) (rows.take start).flatten.length
      ((t ++ (rows.drop (start + 1)).flatten).map lv) 0 (start + 1) (if x.dfn ≤ mv then 0 else 1) =
      if stop < rows.length then
        (some (nv (rows.take stop).flatten, (rows.take stop).flatten.length),
          ninv (rows.take stop).flatten - ninv (rows.take start).flatten)
      else (none, ninv rows.flatten - ninv (rows.take start).flatten) := by
    rw [tailLoop_tail m mv _ _ _ t _ htt]
    have := tailLoop_rows m mv (nv (rows.take start).flatten) (rows.take start).flatten.length
      (rows.drop (start + 1)) (fun r h => hr r (List.mem_of_mem_drop h)) (hvs (start + 1)) (stop - start - 1)
      (0 + t.length) (start + 1) (if x.dfn ≤ mv then 0 else 1)
    rw [show start + 1 + (stop - start - 1) = stop by omega] at this
    rw [this, List.length_drop]
    have hi := ninv_row hvx ⟨hx, htt⟩
    have hi2 : (if x.dfn ≤ mv then 0 else 1) = ninv (x :: t) := by
      rw [hi]
      by_cases hc : x.dfn ≤ mv
      · rw [if_pos hc, if_neg (by omega)]
      · rw [if_neg hc, if_pos (by omega)]
    rw [hi2]
    by_cases hc : stop < rows.length
    · rw [if_pos (by omega), if_pos hc]
      have htk : (rows.take stop).flatten = (rows.take start).flatten ++ ((x :: t) ++
          ((rows.drop (start + 1)).take (stop - start - 1)).flatten) := by
        have h3 := take_add_one_drop rows start (stop - start)
        rw [show start + (stop - start) = stop by omega] at h3
        rw [h3, hd, show stop - start = stop - start - 1 + 1 by omega, List.take_succ_cons, List.flatten_cons]
        rw [show stop - start - 1 + 1 - 1 = stop - start - 1 by omega]
      have e1 := nv_add_ninv (rows.take start).flatten
      have e2 := nv_add_ninv (x :: t)
      have e3 := nv_add_ninv ((rows.drop (start + 1)).take (stop - start - 1)).flatten
      rw [htk, nv_append, nv_append, ninv_append, ninv_append, List.length_append, List.length_append]
      rw [List.length_cons] at e2 ⊢
      simp only [Prod.mk.injEq, Option.some.injEq]
      omega
    · rw [if_neg (by omega), if_neg hc]
      have : ninv rows.flatten = ninv (rows.take start).flatten + (ninv (x :: t) + ninv (rows.drop (start + 1)).flatten) := by
        rw [flatten_take_drop rows start, ninv_append, hd, List.flatten_cons, ninv_append]
      simp only [Prod.mk.injEq, true_and]
      omega
  have hmono : ninv (rows.take start).flatten ≤ ninv rows.flatten := by
    have := ninv_append (rows.take start).flatten (rows.drop start).flatten
    rw [← flatten_take_drop] at this
    omega
  have hsum := nv_add_ninv rows.flatten
  unfold mapDef
  have hcons : rows.flatten.map lv = (x0.rep, x0.dfn) :: (t0 ++ (rows.drop 1).flatten).map lv := by
    conv => lhs; rw [hflat]
    rfl
  generalize hL : rows.flatten.map lv = L at *
  have hLlen : L.length = rows.flatten.length := by rw [← hL, List.length_map]
  subst hcons
  simp only [hlead, hget, hdrop, hstop]
  by_cases hc : stop < rows.length
  · rw [if_pos hc]
    simp only
    cases action with
    | skip =>
      simp only [reduceCtorEq, if_false, Option.some.injEq, Prod.mk.injEq]
      refine ⟨⟨by omega, by omega⟩, by omega, by omega⟩
    | take =>
      have := ht rfl
      subst this
      simp only [if_true, Option.some.injEq, Prod.mk.injEq]
      refine ⟨⟨rfl, by omega⟩, rfl, by omega⟩
    | absent =>
      have := ha rfl
      subst this
      simp
  · rw [if_neg hc]
    have hall : rows.take stop = rows := List.take_of_length_le (by omega)
    rw [hall]
    have hne : rows.flatten.length
        - (ninv (rows.take start).flatten + (ninv rows.flatten - ninv (rows.take start).flatten)) = nv rows.flatten := by
      omega
    simp only [hLlen, hne]
    cases action with
    | skip =>
      simp only [reduceCtorEq, if_false, Option.some.injEq, Prod.mk.injEq]
      refine ⟨⟨by omega, by omega⟩, by omega, by omega⟩
    | take =>
      have := ht rfl
      subst this
      simp only [if_true, Option.some.injEq, Prod.mk.injEq]
      refine ⟨⟨rfl, by omega⟩, rfl, by omega⟩
    | absent =>
      have := ha rfl
      subst this
      simp only [reduceCtorEq, if_false, Nat.zero_add]

theorem mapRep_ok (m : Nat) (rows : List (List (Slot V))) (hr : ∀ r ∈ rows, IsRow m r)
    (start stop frs total : Nat) (h1 : start < stop) (h2 : stop ≤ rows.length) (htot : rows.length ≤ total)
    (action : Preamble) (ht : action = .take → start = 0) (ha : action = .absent → frs = 0) :
    mapRep start stop (rows.flatten.map Slot.rep) frs m total action =
      some ((if action = .take then 0 else frs + (rows.take start).flatten.length,
          frs + (rows.take stop).flatten.length),
        (if action = .take then 0 else frs + (rows.take start).flatten.length,
          frs + (rows.take stop).flatten.length)) := by
  obtain ⟨x0, t0, hd0, hx0, ht0, _⟩ := rows_at rows hr 0 (by omega)
  rw [List.drop_zero] at hd0
  simp only [Nat.zero_add] at hd0
  have hrs : ∀ r ∈ rows.drop 1, IsRow m r := fun r h => hr r (List.mem_of_mem_drop h)
  have hflat : (rows.flatten.map Slot.rep).drop 1 = (t0 ++ (rows.drop 1).flatten).map Slot.rep := by
    conv => lhs; rw [hd0]
    rfl
  have hlead : repStart m start (rows.flatten.map Slot.rep) = ((rows.take start).flatten.length, start) := by
    unfold repStart
    cases start with
    | zero => simp
    | succ st =>
      rw [if_pos (by omega), hflat, rowLoop_tail m _ t0 _ ht0]
      have := rowLoop_rows m (rows.drop 1) hrs st (0 + t0.length) 0
      rw [show 0 + st + 1 = st + 1 by omega, if_pos (by rw [List.length_drop]; omega)] at this
      rw [this]
      have htk : (rows.take (st + 1)).flatten = (x0 :: t0) ++ ((rows.drop 1).take st).flatten := by
        conv => lhs; rw [hd0]
        rfl
      rw [htk, List.length_append, List.length_cons]
      simp only [Prod.mk.injEq]
      exact ⟨by omega, trivial⟩
  obtain ⟨x, t, hd, hx, htt, hmem⟩ := rows_at rows hr start (by omega)
  have hdrop : (rows.flatten.map Slot.rep).drop ((rows.take start).flatten.length + 1)
      = (t ++ (rows.drop (start + 1)).flatten).map Slot.rep := by
    rw [← List.map_drop]
    congr 1
    rw [flatten_take_drop rows start, List.drop_append]
    rw [List.drop_eq_nil_of_le (by omega), hd]
    simp
  have hlen : (rows.take start).flatten.length + 1 ≤ (rows.flatten.map Slot.rep).length := by
    rw [List.length_map, flatten_take_drop rows start, List.length_append, hd]
    simp only [List.take_take, Nat.min_self, List.flatten_cons, List.length_append, List.length_cons]
    omega
  have hstop : repEnd m stop total (rows.take start).flatten.length start (rows.flatten.map Slot.rep)
      = (rows.take stop).flatten.length := by
    unfold repEnd
    rw [hdrop]
    by_cases hs : stop < total
    · rw [if_pos hs, rowLoop_tail m _ t _ htt]
      have := rowLoop_rows m (rows.drop (start + 1)) (fun r h => hr r (List.mem_of_mem_drop h)) (stop - start - 1)
        (0 + t.length) start
      rw [show start + (stop - start - 1) + 1 = stop by omega] at this
      rw [this, List.length_drop]
      by_cases hc : stop < rows.length
      · rw [if_pos (by omega)]
        have htk : (rows.take stop).flatten = (rows.take start).flatten ++ ((x :: t) ++
            ((rows.drop (start + 1)).take (stop - start - 1)).flatten) := by
          have h3 := take_add_one_drop rows start (stop - start)
          rw [show start + (stop - start) = stop by omega] at h3
          rw [h3, hd, show stop - start = stop - start - 1 + 1 by omega, List.take_succ_cons, List.flatten_cons]
          rw [show stop - start - 1 + 1 - 1 = stop - start - 1 by omega]
        rw [htk, List.length_append, List.length_append, List.length_cons]
        simp only
        omega
      · rw [if_neg (by omega), List.take_of_length_le (l := rows) (i := stop) (by omega), List.length_map]
    · rw [if_neg hs, List.take_of_length_le (by omega), List.length_map]
  unfold mapRep
  simp only [hlead]
  rw [if_neg (by omega)]
  simp only [hstop]
  cases action with
  | skip =>
    simp only [reduceCtorEq, if_false, Option.some.injEq, Prod.mk.injEq]
    refine ⟨⟨by omega, by omega⟩, by omega, by omega⟩
  | take =>
    have := ht rfl
    subst this
    simp only [if_true, Option.some.injEq, Prod.mk.injEq]
    refine ⟨⟨rfl, by omega⟩, rfl, by omega⟩
  | absent =>
    have := ha rfl
    subst this
    simp

end Verif.Mini
