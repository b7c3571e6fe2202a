import Verif.Phys.LemmasBlock
/-! Packed structs. -/
namespace Verif.Phys
open Verif.ListCol

theorem chunk_flatten {α : Type} (d : Nat) : ∀ (L : List (List α)), (∀ x ∈ L, x.length = d) → chunk d L.length L.flatten = L
  | [], _ => rfl
  | x :: L, h => by
    have hx := h x (by simp)
    rw [List.length_cons, List.flatten_cons, Nat.add_comm, chunk_append d 1 L.length x L.flatten (by rw [hx, Nat.one_mul]),
      chunk_flatten d L (fun y hy => h y (by simp [hy]))]
    have : chunk d 1 x = [x] := by simp [chunk, slice, ← hx]
    rw [this]
    rfl

/-- The fields of a row. -/
def unpack : List Nat → List Nat → List (List Nat)
  | [], _ => []
  | w :: ws, row => row.take w :: unpack ws (row.drop w)

def rowVal (ws : List Nat) (row : List Nat) : Val := .list ((unpack ws row).map .bytes)

theorem unpack_eq : ∀ (ws row : List Nat),
    unpack ws row = (List.range ws.length).map (fun j => slice row ((ws.take j).sum, (ws.take j).sum + ws.getD j 0))
  | [], _ => rfl
  | w :: ws, row => by
    rw [unpack, unpack_eq ws, List.length_cons, List.range_succ_eq_map, List.map_cons, List.map_map]
    congr 1
    · simp [slice]
    · apply List.map_congr_left
      intro j _
      simp only [Function.comp, List.take_succ_cons, List.sum_cons, List.getD_cons_succ, slice, List.drop_drop]
      congr 1
      omega

theorem unpack_row : ∀ (fields : List (Nat × List Nat)) (g : Nat × List Nat → List Nat), (∀ f ∈ fields, (g f).length = f.1) →
    unpack (fields.map (·.1)) (fields.flatMap g) = fields.map g
  | [], _, _ => rfl
  | f :: fs, g, h => by
    have hf := h f (by simp)
    rw [List.map_cons, unpack, List.flatMap_cons, List.map_cons, ← hf, List.take_left, List.drop_left,
      unpack_row fs g (fun q hq => h q (by simp [hq]))]

theorem row_length (fields : List (Nat × List Nat)) (g : Nat × List Nat → List Nat) (h : ∀ f ∈ fields, (g f).length = f.1) :
    (fields.flatMap g).length = (fields.map (·.1)).sum := by
  induction fields with
  | nil => rfl
  | cons f fs ih =>
    rw [List.flatMap_cons, List.length_append, h f (by simp), ih (fun q hq => h q (by simp [hq])), List.map_cons, List.sum_cons]

theorem slice_row {w n i : Nat} {data : List Nat} (h : data.length = n * w) (hi : i < n) : (slice data (i * w, i * w + w)).length = w := by
  have := Nat.mul_le_mul_right w (show i + 1 ≤ n by omega)
  rw [Nat.add_mul] at this
  rw [length_slice _ _ (by simp only; omega)]
  simp only; omega

/-- The rows of the zipped buffer. -/
theorem zip_rows (fields : List (Nat × List Nat)) (n : Nat) (h : ∀ f ∈ fields, f.2.length = n * f.1) :
    (zipInto fields n).length = n * (fields.map (·.1)).sum ∧
    (chunk (fields.map (·.1)).sum n (zipInto fields n)).map (rowVal (fields.map (·.1))) =
      (List.range n).map (fun i => .list (fields.map (fun f => .bytes (slice f.2 (i * f.1, i * f.1 + f.1))))) := by
  have hL : ∀ x ∈ (List.range n).map (fun i => fields.flatMap (fun f => slice f.2 (i * f.1, i * f.1 + f.1))),
      x.length = (fields.map (·.1)).sum := by
    intro x hx
    obtain ⟨i, hi, e⟩ := List.mem_map.1 hx
    have hi : i < n := by simpa using hi
    subst e
    exact row_length _ _ (fun f hf => slice_row (h f hf) hi)
  have hz : zipInto fields n = ((List.range n).map (fun i => fields.flatMap (fun f => slice f.2 (i * f.1, i * f.1 + f.1)))).flatten := by
    simp [zipInto, List.flatMap]
  have hc := chunk_flatten _ _ hL
  rw [List.length_map, List.length_range, ← hz] at hc
  constructor
  · have := length_flatMap_mul (fields.map (·.1)).sum (fun _ => 1)
      (fun i => fields.flatMap (fun f => slice f.2 (i * f.1, i * f.1 + f.1))) (List.range n) (fun i hi => by
        rw [Nat.one_mul]
        exact hL _ (List.mem_map.2 ⟨i, hi, rfl⟩))
    unfold zipInto
    have hs : ((List.range n).map (fun _ => 1)).sum = n := by
      rw [List.map_const', List.length_range, List.sum_replicate_nat, Nat.mul_one]
    rw [this, hs]
  · rw [hc, List.map_map]
    apply List.map_congr_left
    intro i hi
    have hi : i < n := by simpa using hi
    simp only [Function.comp, rowVal]
    rw [unpack_row _ _ (fun f hf => slice_row (h f hf) hi), List.map_map]
    rfl

theorem take_sum_le : ∀ (ws : List Nat) (j : Nat), (ws.take j).sum + ws.getD j 0 ≤ ws.sum
  | [], j => by simp
  | w :: ws, 0 => by simp
  | w :: ws, j + 1 => by
    have := take_sum_le ws j
    simp only [List.take_succ_cons, List.sum_cons, List.getD_cons_succ]
    omega

/-- The decoder gives the rows of its data. -/
theorem packed_decode (c : Codec) (ws : List Nat) (data : List Nat) (R : Nat) (hd : data.length = R * ws.sum) (skip num : Nat) (hn : skip + num ≤ R) :
    ∃ b, decode c (.packed ws data) skip num = some b ∧
      toArrow b (.packed ws) = some ((slice (chunk ws.sum R data) (skip, skip + num)).map (rowVal ws)) := by
  have hle := Nat.mul_le_mul_right ws.sum hn
  refine ⟨_, by simp only [decode]; rw [if_pos (by omega)], ?_⟩
  simp only [toArrow, Option.some.injEq]
  rw [slice_chunk _ _ _ _ _ hn, Nat.add_sub_cancel_left]
  unfold chunk
  rw [List.map_map]
  apply List.map_congr_left
  intro i hi
  have hi : i < num := by simpa using hi
  simp only [Function.comp, rowVal, unpack_eq, List.map_map]
  congr 1
  apply List.map_congr_left
  intro j _
  simp only [Function.comp]
  congr 1
  have hj := take_sum_le ws j
  generalize hp : (ws.take j).sum = p at *
  generalize hw : ws.getD j 0 = w at *
  generalize hT : ws.sum = T at *
  -- piece i of the field
  have hpc : ∀ x ∈ (List.range num).map (fun i => slice data (skip * T + p + i * T, skip * T + p + i * T + w)), x.length = w := by
    intro x hx
    obtain ⟨q, hq, e⟩ := List.mem_map.1 hx
    have hq : q < num := by simpa using hq
    subst e
    have h1 := Nat.mul_le_mul_right T (show skip + q + 1 ≤ R by omega)
    rw [Nat.add_mul, Nat.add_mul] at h1
    rw [length_slice _ _ (by simp only; omega)]
    simp only; omega
  have hch := chunk_flatten w _ hpc
  rw [List.length_map, List.length_range] at hch
  have hfl : (List.range num).flatMap (fun i => slice data (skip * T + p + i * T, skip * T + p + i * T + w)) =
      ((List.range num).map (fun i => slice data (skip * T + p + i * T, skip * T + p + i * T + w))).flatten := by
    simp [List.flatMap]
  rw [hfl]
  have hget := congrArg (fun l => l[i]?) hch
  simp only [chunk, List.getElem?_map, List.getElem?_range hi, Option.map_some, Option.some.injEq] at hget
  rw [hget]
  have h1 := Nat.mul_le_mul_right T (show i + 1 ≤ num by omega)
  rw [Nat.add_mul] at h1
  rw [slice_slice _ _ _ _ _ (by omega), slice_slice _ _ _ _ _ (by rw [Nat.add_mul]; omega)]
  congr 1
  simp only [Prod.mk.injEq]
  constructor <;> omega

/-- The fields of all arrays. -/
def fieldsOf (ws : List Nat) (arrays : List Arr) : List (Nat × List Nat) :=
  (List.range ws.length).map (fun i => (ws.getD i 0, arrays.flatMap (fun a => (a.fields.getD i (none, [])).2)))

theorem range_getD (ws : List Nat) : (List.range ws.length).map (fun i => ws.getD i 0) = ws := by
  apply List.ext_getElem
  · simp
  · intro i h1 h2
    simp [List.getD_eq_getElem?_getD, List.getElem?_eq_getElem h2]

theorem fieldsOf_fst (ws : List Nat) (arrays : List Arr) : (fieldsOf ws arrays).map (·.1) = ws := by
  rw [fieldsOf, List.map_map]
  exact range_getD ws

/-- No null buffers. -/
def NoNulls (a : Arr) : Prop := a.nulls = none ∧ ∀ f ∈ a.fields, f.1 = none

theorem packed_parts {ws : List Nat} {a : Arr} (h : a.HasTy (.packed ws)) (hn : NoNulls a) :
    (∀ i, i < ws.length → (a.fields.getD i (none, [])).2.length = a.len * ws.getD i 0) ∧
    a.vals (.packed ws) = (List.range a.len).map (fun i => .list ((List.range ws.length).map (fun j =>
      .bytes (slice (a.fields.getD j (none, [])).2 (i * ws.getD j 0, i * ws.getD j 0 + ws.getD j 0))))) := by
  cases a <;> simp only [Arr.HasTy] at h
  rename_i v fields n
  obtain ⟨hn1, hn2⟩ := hn
  simp only [Arr.nulls] at hn1
  subst hn1
  refine ⟨h.2.2.1, ?_⟩
  simp only [Arr.vals, maskO, Arr.len, Arr.fields]
  apply List.map_congr_left
  intro i _
  congr 1
  apply List.ext_getElem
  · simp [h.2.1]
  · intro j h1 h2
    have h3 : j < ws.length := by simpa using h2
    have h4 : j < fields.length := by omega
    have hf := hn2 fields[j] (List.getElem_mem h4)
    simp [fieldVal, hf, h3, h4]

theorem packed_vals (ws : List Nat) : ∀ (arrays : List Arr), (∀ a ∈ arrays, a.HasTy (.packed ws) ∧ NoNulls a) →
    (∀ f ∈ fieldsOf ws arrays, f.2.length = (arrays.map Arr.len).sum * f.1) ∧
    arrays.flatMap (fun a => a.vals (.packed ws)) = (List.range (arrays.map Arr.len).sum).map (fun i =>
      .list ((fieldsOf ws arrays).map (fun f => .bytes (slice f.2 (i * f.1, i * f.1 + f.1)))))
  | [], _ => by
    refine ⟨fun f hf => ?_, rfl⟩
    obtain ⟨i, _, e⟩ := List.mem_map.1 hf
    subst e
    simp
  | a :: as, h => by
    obtain ⟨ha, hn⟩ := h a (by simp)
    obtain ⟨h1, h2⟩ := packed_vals ws as (fun b hb => h b (by simp [hb]))
    obtain ⟨p1, p2⟩ := packed_parts ha hn
    have hl : ∀ j, j < ws.length → (as.flatMap (fun a => (a.fields.getD j (none, [])).2)).length = (as.map Arr.len).sum * ws.getD j 0 := by
      intro j hj
      exact h1 _ (List.mem_map.2 ⟨j, by simpa using hj, rfl⟩)
    constructor
    · intro f hf
      obtain ⟨j, hj, e⟩ := List.mem_map.1 hf
      have hj : j < ws.length := by simpa using hj
      subst e
      simp only [List.flatMap_cons, List.length_append, List.map_cons, List.sum_cons, p1 j hj, hl j hj, Nat.add_mul]
    · rw [List.flatMap_cons, h2, p2, List.map_cons, List.sum_cons, List.range_add, List.map_append, List.map_map]
      congr 1
      · apply List.map_congr_left
        intro i hi
        have hi : i < a.len := by simpa using hi
        simp only [fieldsOf, List.map_map]
        congr 1
        apply List.map_congr_left
        intro j hj
        have hj : j < ws.length := by simpa using hj
        simp only [Function.comp, List.flatMap_cons]
        congr 1
        have := Nat.mul_le_mul_right (ws.getD j 0) (show i + 1 ≤ a.len by omega)
        rw [Nat.add_mul] at this
        rw [slice_append_left _ _ _ (by rw [p1 j hj]; simp only; omega)]
      · apply List.map_congr_left
        intro i _
        simp only [fieldsOf, List.map_map, Function.comp]
        congr 1
        apply List.map_congr_left
        intro j hj
        have hj : j < ws.length := by simpa using hj
        simp only [Function.comp, List.flatMap_cons]
        congr 1
        rw [slice_append_right _ _ _ (by rw [p1 j hj]; simp only; exact Nat.mul_le_mul_right _ (by omega)), p1 j hj]
        congr 1
        simp only [Nat.add_mul, Prod.mk.injEq]
        constructor <;> omega

theorem packed_page (c : Codec) (file : List Nat) (bufs : List Rng) {ws : List Nat} (hws : ws ≠ []) {arrays : List Arr}
    (h : ∀ a ∈ arrays, a.HasTy (.packed ws) ∧ NoNulls a) (hpos : 0 < (arrays.map Arr.len).sum) :
    ∃ b b' e k', fromArrays (.packed ws) arrays = some b ∧ encode c .packed b (.packed ws) 0 = some (b', e, k') ∧
      (Placed file bufs b'.buffers → ∃ s, mkSched bufs (.packed ws) e = some s ∧
        ∀ ranges, InB (arrays.flatMap (fun a => a.vals (.packed ws))).length ranges → ∃ d, schedule c file s ranges = some d ∧
          ∀ skip num, skip + num ≤ rows ranges → ∃ x, decode c d skip num = some x ∧
            toArrow x (.packed ws) = some (slice (wanted (arrays.flatMap (fun a => a.vals (.packed ws))) ranges) (skip, skip + num))) := by
  obtain ⟨h1, h2⟩ := packed_vals ws arrays h
  obtain ⟨z1, z2⟩ := zip_rows (fieldsOf ws arrays) (arrays.map Arr.len).sum h1
  rw [fieldsOf_fst] at z1 z2
  have hne : ∃ f fs, fieldsOf ws arrays = f :: fs := by
    cases hf : fieldsOf ws arrays with
    | nil =>
      have := fieldsOf_fst ws arrays
      rw [hf] at this
      exact absurd this.symm hws
    | cons f fs => exact ⟨f, fs, rfl⟩
  refine ⟨.packed (fieldsOf ws arrays) (arrays.map Arr.len).sum, .fixed ws.sum (zipInto (fieldsOf ws arrays) (arrays.map Arr.len).sum) (arrays.map Arr.len).sum,
    .packed 0, 1, ?_, ?_, fun hp => ?_⟩
  · unfold fromArrays withNulls
    simp only
    rw [if_neg (by omega)]
    have ha : arrays.all (fun a => a.nulls.isNone) = true := by
      rw [List.all_eq_true]
      intro a ha
      rw [(h a ha).2.1]
      rfl
    unfold extractNulls
    rw [if_pos ha]
    simp only
    rw [if_neg]
    · rfl
    · rw [Bool.not_eq_true, List.any_eq_false]
      intro a ha
      rw [Bool.not_eq_true, List.any_eq_false]
      intro f hf
      rw [(h a ha).2.2 f hf]
      simp
  · obtain ⟨f, fs, hf⟩ := hne
    have hfst := fieldsOf_fst ws arrays
    rw [hf] at hfst
    simp only [encode, hf]
    rw [hfst]
  · obtain ⟨p, hp1, hp2⟩ := hp 0 _ rfl
    refine ⟨.packed ws p, by simp only [mkSched, hp1], fun ranges hr => ?_⟩
    rw [h2, List.length_map, List.length_range] at hr
    refine ⟨_, rfl, fun skip num hn => ?_⟩
    have e : ranges.flatMap (fun r => slice file (p + r.1 * ws.sum, p + r.2 * ws.sum)) =
        wanted (zipInto (fieldsOf ws arrays) (arrays.map Arr.len).sum) (scale ws.sum ranges) := by
      rw [← wanted_flatten, scale, List.map_map, List.flatMap]
      congr 1
      apply List.map_congr_left
      intro r hrm
      have ⟨q1, q2⟩ := hr r hrm
      have := Nat.mul_le_mul_right ws.sum q2
      rw [← slice_slice file p _ _ _ (by rw [Nat.add_sub_cancel_left]; rw [← z1] at this; exact this), hp2]
      rfl
    rw [e]
    obtain ⟨x, x1, x2⟩ := packed_decode c ws (wanted (zipInto (fieldsOf ws arrays) (arrays.map Arr.len).sum) (scale ws.sum ranges)) (rows ranges)
      (by rw [length_wanted_le _ _ (by rw [z1]; exact inB_mul hr), rows_scale]) skip num hn
    refine ⟨x, x1, ?_⟩
    rw [x2, ← wanted_chunk _ _ _ z1 ranges hr, ← slice_map, ← wanted_map, z2, h2]

end Verif.Phys
