import Verif.Phys.LemmasBase
/-! Columns of fixed width, booleans, validity and fixed size lists. -/
namespace Verif.Phys
open Verif.ListCol

/-- A scheduler gives the values `vs`. -/
def Reads (c : Codec) (file : List Nat) (s : Sched) (t : Ty) (vs : List Val) : Prop :=
  ∀ ranges, InB vs.length ranges → ∃ d, schedule c file s ranges = some d ∧
    ∀ skip num, skip + num ≤ rows ranges → Fits ranges skip num →
      ∃ b, decode c d skip num = some b ∧ toArrow b t = some (slice (wanted vs ranges) (skip, skip + num))

def Block.plain : Block → Bool
  | .allNull _ => false
  | .nullable _ _ => false
  | _ => true

/-- Blocks of flat types as `fromArrays` makes them. -/
def Block.Wf : Block → Ty → Prop
  | .allNull _, _ => True
  | .nullable f b, t => f.length = b.numValues ∧ b.plain = true ∧ b.Wf t
  | .bits _, .bool => True
  | .fixed w data n, .prim w' => w = w' ∧ data.length = n * w
  | .fsl d child, .fsl inner d' => d = d' ∧ 0 < d ∧ child.numValues % d = 0 ∧ child.Wf inner
  | _, _ => False

theorem wf_toArrow : ∀ (b : Block) (t : Ty), b.Wf t → ∃ vs, toArrow b t = some vs ∧ vs.length = b.numValues
  | .allNull n, t, _ => ⟨List.replicate n .null, by simp [toArrow], by simp [Block.numValues]⟩
  | .nullable f b, t, h => by
    obtain ⟨vs, h1, h2⟩ := wf_toArrow b t h.2.2
    refine ⟨mask f vs, by simp [toArrow, h1], ?_⟩
    simp [mask, Block.numValues, h2, h.1]
  | .bits bs, t, h => by
    cases t <;> simp only [Block.Wf] at h
    exact ⟨_, rfl, by simp [Block.numValues]⟩
  | .fixed w data n, t, h => by
    cases t <;> simp only [Block.Wf] at h
    obtain ⟨h1, h2⟩ := h
    subst h1
    refine ⟨(chunk w n data).map .bytes, ?_, by simp [Block.numValues, length_chunk]⟩
    simp only [toArrow]
    rw [if_neg (by omega)]
  | .fsl d child, t, h => by
    cases t <;> simp only [Block.Wf] at h
    rename_i inner d'
    obtain ⟨vs, h1, h2⟩ := wf_toArrow child inner h.2.2.2
    refine ⟨(chunk d (vs.length / d) vs).map .list, by simp [toArrow, h1], ?_⟩
    simp [length_chunk, Block.numValues, h2]
  | .var .., t, h => by cases t <;> simp only [Block.Wf] at h
  | .dict .., t, h => by cases t <;> simp only [Block.Wf] at h
  | .packed .., t, h => by cases t <;> simp only [Block.Wf] at h

theorem placed_cons {file : List Nat} {bufs : List Rng} {x : List Nat} {xs : List (List Nat)} {k : Nat}
    (h : Placed file (bufs.drop k) (x :: xs)) :
    (∃ p, bufs[k]? = some (p, x.length) ∧ slice file (p, p + x.length) = x) ∧ Placed file (bufs.drop (k + 1)) xs := by
  constructor
  · obtain ⟨p, h1, h2⟩ := h 0 x rfl
    refine ⟨p, ?_, h2⟩
    rw [List.getElem?_drop] at h1
    simpa using h1
  · intro i b hb
    obtain ⟨p, h1, h2⟩ := h (i + 1) b (by simpa using hb)
    refine ⟨p, ?_, h2⟩
    rw [List.getElem?_drop] at h1 ⊢
    rw [← h1]; congr 1; omega

theorem placed_append {file : List Nat} {bufs : List Rng} {k : Nat} : ∀ {xs ys : List (List Nat)},
    Placed file (bufs.drop k) (xs ++ ys) → Placed file (bufs.drop k) xs ∧ Placed file (bufs.drop (k + xs.length)) ys := by
  intro xs ys h
  constructor
  · intro i b hb
    apply h i b
    have hi : i < xs.length := by
      rcases Nat.lt_or_ge i xs.length with h' | h'
      · exact h'
      · rw [List.getElem?_eq_none h'] at hb; cases hb
    rw [List.getElem?_append_left hi]; exact hb
  · intro i b hb
    obtain ⟨p, h1, h2⟩ := h (xs.length + i) b (by rw [List.getElem?_append_right (by omega)]; simpa using hb)
    refine ⟨p, ?_, h2⟩
    rw [List.getElem?_drop] at h1 ⊢
    rw [← h1]; congr 1; omega

/-! ### bitmaps and values -/

theorem bitmap_ok (c : Codec) (file : List Nat) (bs : List Bool) (p : Nat)
    (hp : slice file (p, p + (packBits bs).length) = packBits bs) (ranges : List Rng) (hr : InB bs.length ranges) :
    ∃ d, schedule c file (.bitmap p) ranges = some d ∧ ∀ skip num, skip + num ≤ rows ranges → Fits ranges skip num →
      decode c d skip num = some (.bits (slice (wanted bs ranges) (skip, skip + num))) := by
  refine ⟨_, rfl, fun skip num hn hf => ?_⟩
  simp only [decode]
  have e : ranges.map (fun r => (slice file (p + r.1 / 8, p + (r.2 + 7) / 8), r.1 % 8, r.2 - r.1)) =
      ranges.map (fun r => (slice (packBits bs) (r.1 / 8, (r.2 + 7) / 8), r.1 % 8, r.2 - r.1)) := by
    apply List.map_congr_left
    intro r hrm
    have ⟨h1, h2⟩ := hr r hrm
    rw [← slice_slice file p (p + (packBits bs).length) _ _ (by rw [length_packBits]; omega), hp]
  rw [e, decodeBitmap_ok bs ranges skip num hr hn hf]
  rfl

theorem wanted_flatten {α : Type} (xs : List α) (rs : List Rng) : (rs.map (slice xs)).flatten = wanted xs rs := by
  simp [wanted, List.flatMap]

theorem mapM_some {α β : Type} (f : α → Option β) (g : α → β) : ∀ (l : List α), (∀ x ∈ l, f x = some (g x)) → l.mapM f = some (l.map g)
  | [], _ => rfl
  | x :: xs, h => by
    rw [List.mapM_cons, h x (by simp), mapM_some f g xs (fun y hy => h y (by simp [hy]))]
    rfl

/-- The value encoding gives the bytes of the rows; all ranges, all batches. -/
theorem value_ok (c : Codec) (hc : c.Ok) (file : List Nat) (w n : Nat) (data : List Nat) (hd : data.length = n * w) (p size : Nat)
    (comp : Bool) (hs : size = (if comp then c.comp data else data).length)
    (hp : slice file (p, p + size) = if comp then c.comp data else data) (ranges : List Rng) (hr : InB n ranges) :
    ∃ d, schedule c file (.value w p size comp) ranges = some d ∧ ∀ skip num, skip + num ≤ rows ranges →
      decode c d skip num = some (.fixed w (slice (wanted data (scale w ranges)) (skip * w, (skip + num) * w)) num) := by
  cases comp with
  | false =>
    refine ⟨_, rfl, fun skip num hn => ?_⟩
    simp only [Bool.false_eq_true, if_false] at hs hp
    simp only [decode, decodeValue, List.isEmpty_nil, if_true, Option.some.injEq]
    rw [decodeBuffers_none]
    congr 1
    have e : ranges.map (fun r => slice file (p + r.1 * w, p + r.2 * w)) = (scale w ranges).map (slice data) := by
      rw [scale, List.map_map]
      apply List.map_congr_left
      intro r hrm
      have ⟨h1, h2⟩ := hr r hrm
      have := Nat.mul_le_mul_right w h2
      rw [← slice_slice file p (p + size) _ _ (by omega), hp]
      rfl
    rw [e, wanted_flatten, Nat.add_mul]
  | true =>
    refine ⟨_, rfl, fun skip num hn => ?_⟩
    simp only [if_true] at hs hp
    simp only [decode, decodeValue]
    cases ranges with
    | nil =>
      have hn : num = 0 := by simp [rows] at hn; omega
      subst hn
      simp only [List.map_nil, List.isEmpty_nil, if_true, decodeBuffers_none, scale, Nat.zero_mul, Nat.add_zero]
      rw [slice_empty, slice_empty]
    | cons r rs =>
      simp only [List.map_cons, List.isEmpty_cons, Bool.false_eq_true, if_false, decompress, List.headD_cons]
      have hc' := hc data
      rw [← hp] at hc'
      rw [hc']
      simp only
      have e : ((r.1 * w, r.2 * w) :: rs.map (fun r => (r.1 * w, r.2 * w))) = scale w (r :: rs) := rfl
      rw [e, mapM_some _ (slice data)]
      · simp only [Option.map_some, decodeBuffers_none, wanted_flatten, Nat.add_mul]
      · intro x hx
        obtain ⟨q, hq, e⟩ := List.mem_map.1 hx
        subst e
        have ⟨h1, h2⟩ := hr q hq
        have := Nat.mul_le_mul_right w h2
        rw [if_pos (by simp only; omega)]

theorem value_vals (w n : Nat) (data : List Nat) (hd : data.length = n * w) (ranges : List Rng) (hr : InB n ranges)
    (skip num : Nat) (hn : skip + num ≤ rows ranges) :
    chunk w num (slice (wanted data (scale w ranges)) (skip * w, (skip + num) * w)) =
      slice (wanted (chunk w n data) ranges) (skip, skip + num) := by
  rw [wanted_chunk w n data hd ranges hr, slice_chunk _ _ _ _ _ hn, Nat.add_sub_cancel_left]

theorem inB_mul {n w : Nat} {rs : List Rng} (h : InB n rs) : ∀ r ∈ scale w rs, r.2 ≤ n * w := by
  intro r hr
  obtain ⟨q, hq, e⟩ := List.mem_map.1 hr
  subst e
  exact Nat.mul_le_mul_right w (h q hq).2

theorem length_wanted_le {α : Type} (xs : List α) (rs : List Rng) (h : ∀ r ∈ rs, r.2 ≤ xs.length) : (wanted xs rs).length = rows rs := by
  induction rs with
  | nil => rfl
  | cons r rs ih =>
    rw [wanted_cons, rows_cons, List.length_append, length_slice _ _ (h r (by simp)), ih (fun q hq => h q (by simp [hq]))]

theorem value_len (w n : Nat) (data : List Nat) (hd : data.length = n * w) (ranges : List Rng) (hr : InB n ranges)
    (skip num : Nat) (hn : skip + num ≤ rows ranges) :
    (slice (wanted data (scale w ranges)) (skip * w, (skip + num) * w)).length = num * w := by
  rw [length_slice]
  · simp only; rw [Nat.add_mul]; omega
  · rw [length_wanted_le _ _ (by rw [hd]; exact inB_mul hr), rows_scale]
    exact Nat.mul_le_mul_right w hn

/-! ### the encoders -/

/-- What an encoder must do with a block that it does not change. -/
def EncOk (c : Codec) (file : List Nat) (bufs : List Rng) (T : Ty) (E : Encoder) (b : Block) (t : Ty) : Prop :=
  ∀ k, ∃ e, encode c E b t k = some (b, e, k + b.buffers.length) ∧
    (Placed file (bufs.drop k) b.buffers → ∃ s, mkSched bufs T e = some s ∧ ∀ vs, toArrow b t = some vs → Reads c file s t vs)

theorem reads_none {c : Codec} {file : List Nat} {s : Sched} {t : Ty} {vs : List Val} (h : Reads c file s t vs) :
    Reads c file (.basicNone s) t vs := by
  intro ranges hr
  obtain ⟨d, h1, h2⟩ := h ranges hr
  refine ⟨.basicNone d, by simp [schedule, h1], fun skip num hn hf => ?_⟩
  obtain ⟨b, h3, h4⟩ := h2 skip num hn hf
  exact ⟨b, by simpa [decode] using h3, h4⟩

theorem reads_all (c : Codec) (file : List Nat) (t : Ty) (n : Nat) : Reads c file .basicAll t (List.replicate n .null) := by
  intro ranges hr
  rw [List.length_replicate] at hr
  refine ⟨.basicAll, rfl, fun skip num hn _ => ⟨.allNull num, rfl, ?_⟩⟩
  rw [wanted_replicate n _ ranges hr, slice_replicate _ _ _ _ hn]
  simp [toArrow]

theorem reads_some {c : Codec} {file : List Nat} {s : Sched} {t : Ty} {vs : List Val} {f : List Bool} {p : Nat}
    (hl : f.length = vs.length) (hp : slice file (p, p + (packBits f).length) = packBits f) (h : Reads c file s t vs) :
    Reads c file (.basicSome (.bitmap p) s) t (mask f vs) := by
  intro ranges hr
  have hm : (mask f vs).length = vs.length := by simp [mask, hl]
  rw [hm] at hr
  obtain ⟨d, h1, h2⟩ := h ranges hr
  obtain ⟨dv, h5, h6⟩ := bitmap_ok c file f p hp ranges (hl ▸ hr)
  refine ⟨.basicSome dv d, by simp [schedule] at h5 ⊢; simp [h1, h5], fun skip num hn hf => ?_⟩
  obtain ⟨b, h3, h4⟩ := h2 skip num hn hf
  refine ⟨.nullable (slice (wanted f ranges) (skip, skip + num)) b, ?_, ?_⟩
  · simp only [decode]; rw [h6 skip num hn hf, h3]
  · simp only [toArrow, h4, Option.map_some, Option.some.injEq]
    unfold mask
    rw [wanted_zipWith _ _ _ hl ranges (hl ▸ hr), slice_zipWith]

theorem basic_ok {c : Codec} {file : List Nat} {bufs : List Rng} {T : Ty} {E : Encoder} {t : Ty}
    (h : ∀ b : Block, b.plain = true → b.Wf t → EncOk c file bufs T E b t) (b : Block) (hb : b.Wf t) :
    EncOk c file bufs T (.basic E) b t := by
  intro k
  by_cases hpl : b.plain = true
  · obtain ⟨e, h1, h2⟩ := h b hpl hb k
    refine ⟨.noNulls e, ?_, fun hp => ?_⟩
    · cases b <;> simp_all [encode, Block.plain]
    · obtain ⟨s, h3, h4⟩ := h2 hp
      exact ⟨.basicNone s, by simp [mkSched, h3], fun vs hv => reads_none (h4 vs hv)⟩
  · cases b with
    | allNull n =>
      refine ⟨.allNulls, by simp [encode, Block.buffers], fun _ => ⟨.basicAll, rfl, fun vs hv => ?_⟩⟩
      simp only [toArrow, Option.some.injEq] at hv
      rw [← hv]
      exact reads_all c file t n
    | nullable f b' =>
      obtain ⟨hl, hp', hw⟩ := hb
      obtain ⟨e, h1, h2⟩ := h b' hp' hw (k + 1)
      refine ⟨.someNulls (.flat 1 k false) e, ?_, fun hp => ?_⟩
      · simp only [encode, h1, Option.map_some, Block.buffers, List.length_cons, Option.some.injEq, Prod.mk.injEq, true_and]
        omega
      · have hb : (Block.nullable f b').buffers = packBits f :: b'.buffers := rfl
        rw [hb] at hp
        obtain ⟨⟨p, hp1, hp2⟩, hp3⟩ := placed_cons hp
        obtain ⟨s, h3, h4⟩ := h2 hp3
        refine ⟨.basicSome (.bitmap p) s, by simp [mkSched, h3, hp1], fun vs hv => ?_⟩
        obtain ⟨ws, hw1, hw2⟩ := wf_toArrow b' t hw
        simp only [toArrow, hw1, Option.map_some, Option.some.injEq] at hv
        rw [← hv]
        exact reads_some (by rw [hl, hw2]) hp2 (h4 ws hw1)
    | _ => exact absurd rfl hpl

theorem value_enc_ok {c : Codec} (hc : c.Ok) {file : List Nat} {bufs : List Rng} {T t : Ty}
    (b : Block) (hp : b.plain = true) (hw : b.Wf t) (ht : t = .bool ∨ ∃ w, t = .prim w) : EncOk c file bufs T .value b t := by
  intro k
  rcases ht with ht | ⟨w, ht⟩
  · subst ht
    cases b <;> simp only [Block.Wf, Block.plain] at hw hp <;> try (cases hp; done)
    rename_i bs
    refine ⟨.flat 1 k false, by simp [encode, Block.buffers], fun hp => ?_⟩
    obtain ⟨⟨p, hp1, hp2⟩, _⟩ := placed_cons hp
    refine ⟨.bitmap p, by simp [mkSched, hp1], fun vs hv ranges hr => ?_⟩
    simp only [toArrow, Option.some.injEq] at hv
    subst hv
    rw [List.length_map] at hr
    obtain ⟨d, h1, h2⟩ := bitmap_ok c file bs p hp2 ranges hr
    refine ⟨d, h1, fun skip num hn hf => ⟨_, h2 skip num hn hf, ?_⟩⟩
    simp only [toArrow, Option.some.injEq]
    rw [wanted_map, slice_map]
  · subst ht
    cases b <;> simp only [Block.Wf, Block.plain] at hw hp <;> try (cases hp; done)
    rename_i w' data n
    obtain ⟨e, hd⟩ := hw
    subst e
    refine ⟨.flat (8 * w') k false, by simp [encode, Block.buffers], fun hp => ?_⟩
    obtain ⟨⟨p, hp1, hp2⟩, _⟩ := placed_cons hp
    refine ⟨.value w' p data.length false, ?_, fun vs hv ranges hr => ?_⟩
    · simp only [mkSched, hp1]
      rw [if_neg (by omega), if_neg (by omega), Nat.mul_div_cancel_left _ (by omega)]
    · simp only [toArrow] at hv
      rw [if_neg (by omega)] at hv
      simp only [Option.some.injEq] at hv
      subst hv
      rw [List.length_map, length_chunk] at hr
      obtain ⟨d, h1, h2⟩ := value_ok c hc file w' n data hd p data.length false rfl hp2 ranges hr
      refine ⟨d, h1, fun skip num hn _ => ⟨_, h2 skip num hn, ?_⟩⟩
      simp only [toArrow]
      rw [if_neg (by rw [value_len w' n data hd ranges hr skip num hn]; omega), value_vals w' n data hd ranges hr skip num hn,
        wanted_map, slice_map]

theorem reads_fsl {c : Codec} {file : List Nat} {s : Sched} {inner : Ty} {vs : List Val} {d n : Nat} (hd : 0 < d)
    (hl : vs.length = n * d) (h : Reads c file s inner vs) :
    Reads c file (.fsl s d) (.fsl inner d) ((chunk d n vs).map .list) := by
  intro ranges hr
  rw [List.length_map, length_chunk] at hr
  obtain ⟨dc, h1, h2⟩ := h (scale d ranges) (hl ▸ inB_scale hd hr)
  refine ⟨.fsl dc d, by simp only [schedule]; rw [show ranges.map (fun r => (r.1 * d, r.2 * d)) = scale d ranges from rfl, h1]; rfl,
    fun skip num hn hf => ?_⟩
  obtain ⟨b, h3, h4⟩ := h2 (skip * d) (num * d) (by rw [rows_scale, ← Nat.add_mul]; exact Nat.mul_le_mul_right d hn) (fits_scale hd _ _ _ hf)
  refine ⟨.fsl d b, by simp [decode, h3], ?_⟩
  simp only [toArrow, h4, Option.map_some, Option.some.injEq]
  have e : (slice (wanted vs (scale d ranges)) (skip * d, skip * d + num * d)).length = num * d := by
    rw [length_slice]
    · simp only; omega
    · rw [length_wanted_le _ _ (by rw [hl]; exact inB_mul hr), rows_scale, ← Nat.add_mul]
      exact Nat.mul_le_mul_right d hn
  rw [e, Nat.mul_div_cancel _ hd, wanted_map, slice_map, wanted_chunk d n vs hl ranges hr, slice_chunk _ _ _ _ _ hn,
    Nat.add_sub_cancel_left, Nat.add_mul]

theorem flat_ok {c : Codec} (hc : c.Ok) (file : List Nat) (bufs : List Rng) (T : Ty) : ∀ (t : Ty) (ud cp : Bool), t.flat = true →
    ∀ b : Block, b.Wf t → EncOk c file bufs T (chooseEncoder ud cp t) b t
  | .null, ud, cp, _, b, hb => by
    unfold chooseEncoder
    refine basic_ok (fun b hp hw => ?_) b hb
    cases b <;> simp only [Block.Wf, Block.plain] at hw hp
    all_goals cases hp
  | .bool, ud, cp, _, b, hb => by
    unfold chooseEncoder
    exact basic_ok (fun b hp hw => value_enc_ok hc b hp hw (Or.inl rfl)) b hb
  | .prim w, ud, cp, _, b, hb => by
    unfold chooseEncoder
    exact basic_ok (fun b hp hw => value_enc_ok hc b hp hw (Or.inr ⟨w, rfl⟩)) b hb
  | .fsl inner d, ud, cp, hf, b, hb => by
    unfold chooseEncoder
    refine basic_ok (fun b hp hw => ?_) b hb
    cases b <;> simp only [Block.Wf, Block.plain] at hw hp <;> try (cases hp; done)
    rename_i d' child
    obtain ⟨e, hd, hm, hw⟩ := hw
    subst e
    intro k
    obtain ⟨e, h1, h2⟩ := flat_ok hc file bufs T inner ud false hf child hw k
    refine ⟨.fsl d' e, by simp [encode, h1, Block.buffers], fun hp => ?_⟩
    obtain ⟨s, h3, h4⟩ := h2 hp
    refine ⟨.fsl s d', by simp [mkSched, h3], fun vs hv => ?_⟩
    obtain ⟨ws, hw1, hw2⟩ := wf_toArrow child inner hw
    simp only [toArrow, hw1, Option.map_some, Option.some.injEq] at hv
    rw [← hv]
    exact reads_fsl hd (by rw [hw2]; exact (Nat.div_mul_cancel (Nat.dvd_of_mod_eq_zero hm)).symm) (h4 ws hw1)
  | .bin _, _, _, hf, _, _ => by cases hf
  | .dict .., _, _, hf, _, _ => by cases hf
  | .packed _, _, _, hf, _, _ => by cases hf

end Verif.Phys
