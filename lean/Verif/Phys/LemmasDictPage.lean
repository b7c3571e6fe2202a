import Verif.Phys.LemmasDict
/-! Dictionary columns: the page. -/
namespace Verif.Phys
open Verif.ListCol
open Verif.RowIds.Serde (leBytes fromLe leBytes_length fromLe_leBytes)

theorem nullArr_hasTy : ∀ (t : Ty), t.item → (∃ a : Arr, a.HasTy t) → ∀ n, (nullArr t n).HasTy t ∧ (nullArr t n).len = n
  | .null, _, _, n => ⟨trivial, rfl⟩
  | .bool, _, _, n => ⟨by intro f hf; simp only [Option.some.injEq] at hf; subst hf; simp, by simp [nullArr, Arr.len]⟩
  | .prim w, _, _, n => ⟨⟨by intro f hf; simp only [Option.some.injEq] at hf; subst hf; simp, by simp⟩, rfl⟩
  | .bin wide, _, _, n => by
    refine ⟨⟨by intro f hf; simp only [Option.some.injEq] at hf; subst hf; simp, by simp [List.replicate_succ], ?_, ?_⟩, by simp [nullArr, Arr.len]⟩
    · induction n with
      | zero => exact trivial
      | succ n ih =>
        rw [List.replicate_succ, List.replicate_succ]
        rw [List.replicate_succ] at ih
        exact ⟨Nat.le_refl _, ih⟩
    · have : (List.replicate (n + 1) 0).getLastD 0 = 0 := by
        rw [List.getLastD_eq_getLast?, List.getLast?_replicate]; simp
      rw [this]; simp
  | .fsl inner d, hi, ⟨a, ha⟩, n => by
    have hf : inner.flat = true := by
      rcases hi with h | h
      · exact h
      · cases h
    obtain ⟨_, hd, hc, _, _⟩ := raw_fsl hf ha
    obtain ⟨h1, h2⟩ := nullArr_hasTy inner (Or.inl hf) ⟨_, hc⟩ (n * d)
    exact ⟨⟨by intro f hf; simp only [Option.some.injEq] at hf; subst hf; simp, hd, h2, h1⟩, rfl⟩
  | .dict .., hi, _, _ => by rcases hi with h | h <;> cases h
  | .packed _, hi, _, _ => by rcases hi with h | h <;> cases h

theorem nullArr_nulls (t : Ty) (ht : t.item) (n : Nat) : (nullArr t n).nulls = some (List.replicate n false) := by
  cases t with
  | dict _ _ _ => rcases ht with h | h <;> cases h
  | packed _ => rcases ht with h | h <;> cases h
  | _ => rfl

theorem nullArr_vals (t : Ty) (ht : t.item) (h : ∃ a : Arr, a.HasTy t) (n : Nat) : (nullArr t n).vals t = List.replicate n .null := by
  obtain ⟨h1, h2⟩ := nullArr_hasTy t ht h n
  obtain ⟨raw, r1, r2, r3⟩ := item_raw ht h1
  rw [r1, Arr.flags, nullArr_nulls t ht n, Option.getD_some, mask_false _ _ (by rw [r2, h2])]

/-- The bytes of the strings of the arrays. -/
def strBytes (arrays : List Arr) : Nat := (arrays.flatMap Arr.strs).flatten.length

/-- Items arrays make a block that can be written and read. -/
theorem items_block {c : Codec} (hc : c.Ok) (file : List Nat) (bufs : List Rng) (T vt : Ty) (hT : wideOf T = false) (hvt : vt.item) (arrays : List Arr)
    (h : ∀ a ∈ arrays, a.HasTy vt) (hsz : strBytes arrays < 2 ^ 63) (hpos : 0 < (arrays.flatMap (fun a => a.vals vt)).length) :
    ∃ b, fromArrays vt arrays = some b ∧ b.numValues = (arrays.flatMap (fun a => a.vals vt)).length ∧
      ItemsOk c file bufs T vt b (arrays.flatMap (fun a => a.vals vt)) := by
  rcases hvt with hf | hf
  · obtain ⟨b, h1, h2, h3, h4⟩ := fromArrays_flat vt arrays hf h
    obtain ⟨vs, h5, h6⟩ := wf_toArrow b vt h2
    rw [h4] at h5
    simp only [Option.some.injEq] at h5
    exact ⟨b, h1, by rw [h5, h6], flat_items hc file bufs T vt hf b h2 _ h4 hpos⟩
  · subst hf
    obtain ⟨b, S, F, h1, h2, h3, h4, h5, h6⟩ := fromArrays_bin h
    have hl : (mask F (S.map .bytes)).length = S.length := by simp [mask, h4]
    rw [h6] at hpos ⊢
    rw [hl] at hpos
    refine ⟨b, h1, ?_, bin_items hc file bufs T hT b h2 h4 (List.length_pos_iff.1 hpos) (by unfold strBytes at hsz; omega)⟩
    rw [hl]
    rcases h2 with ⟨e, _⟩ | ⟨e, _⟩ | e <;> subst e <;> simp [Block.numValues, length_offs]

theorem idxOf_some : ∀ {l : List Bool} {i : Nat}, l.idxOf? false = some i → l[i]? = some false := by
  intro l
  induction l with
  | nil => intro i h; simp at h
  | cons b l ih =>
    intro i h
    rw [List.idxOf?_cons] at h
    cases b with
    | false => simp at h; subst h; rfl
    | true =>
      simp only [beq_iff_eq, Bool.true_eq_false, if_false] at h
      obtain ⟨j, hj, e⟩ := Option.map_eq_some_iff.1 h
      subst e
      simpa using ih hj

/-- Does the dictionary fit in the key type? -/
def KeysFit (w : Nat) (signed : Bool) (arrays : List Arr) : Prop :=
  totalItems arrays ≤ maxIndexVal w signed ∨ (arrays.length = 1 ∧ ∀ a ∈ arrays, a.nulls = none)

theorem maxIndexVal_lt (w : Nat) (signed : Bool) : maxIndexVal w signed < 256 ^ w := by
  unfold maxIndexVal
  have h : (256 : Nat) ^ w = 2 ^ (8 * w) := by rw [Nat.pow_mul]
  have h2 : (2 : Nat) ^ (8 * w - 1) ≤ 2 ^ (8 * w) := Nat.pow_le_pow_right (by omega) (by omega)
  have h3 : 0 < (2 : Nat) ^ (8 * w) := Nat.pow_pos (by omega)
  split <;> omega

theorem concatKeys_one (a : Arr) : concatKeys 0 [a] = a.keys := by simp [concatKeys]

theorem length_items {vt : Ty} (hvt : vt.item) : ∀ {arrays : List Arr}, (∀ a ∈ arrays, a.HasTy vt) →
    (arrays.flatMap (fun a => a.vals vt)).length = (arrays.map Arr.len).sum ∧
    (arrays.flatMap Arr.flags).length = (arrays.map Arr.len).sum ∧
    ∀ k : Nat, (arrays.flatMap Arr.flags)[k]? = some false → (arrays.flatMap (fun a => a.vals vt)).getD k .null = .null
  | [], _ => ⟨rfl, rfl, fun _ _ => rfl⟩
  | a :: as, h => by
    obtain ⟨h1, h2, h3⟩ := item_len hvt (h a (by simp))
    obtain ⟨i1, i2, i3⟩ := length_items hvt (arrays := as) (fun b hb => h b (by simp [hb]))
    simp only [List.flatMap_cons, List.length_append, List.map_cons, List.sum_cons]
    refine ⟨by omega, by omega, fun k hk => ?_⟩
    rcases Nat.lt_or_ge k a.flags.length with hlt | hge
    · rw [List.getElem?_append_left hlt] at hk
      rw [List.getD_eq_getElem?_getD, List.getElem?_append_left (by omega), h3 k hk]; rfl
    · rw [List.getElem?_append_right hge] at hk
      have := i3 _ hk
      rw [List.getD_eq_getElem?_getD] at this ⊢
      rw [List.getElem?_append_right (by omega), h1, ← h2]
      exact this

/-- The indices of dictionary arrays with nulls: keys of items that have the values of the arrays. -/
theorem dictIndices_some {w : Nat} {signed : Bool} {vt : Ty} (hvt : vt.item) {arrays : List Arr}
    (h : ∀ a ∈ arrays, a.HasTy (.dict w signed vt)) (hne : arrays ≠ []) (hfit : totalItems arrays ≤ maxIndexVal w signed) :
    ∃ (K : List Nat) (vs : List Arr), dictIndices w signed vt arrays (some (arrays.flatMap Arr.flags)) = some (w, K.flatMap (leBytes w), vs) ∧
      (∀ a ∈ vs, a.HasTy vt) ∧ strBytes vs = strBytes (arrays.map Arr.values) ∧
      K.map (fun k => (vs.flatMap (fun a => a.vals vt)).getD k .null) = mask (arrays.flatMap Arr.flags) (arrays.flatMap (keyVals vt)) ∧
      (∀ k ∈ K, k < (vs.flatMap (fun a => a.vals vt)).length ∧ k < 256 ^ w) := by
  have hval : ∀ a ∈ arrays.map Arr.values, a.HasTy vt := by
    intro x hx
    obtain ⟨a, ha, e⟩ := List.mem_map.1 hx
    obtain ⟨v, _, _, hv, _⟩ := dict_parts (h a ha)
    exact e ▸ hv
  obtain ⟨l1, l2, l3⟩ := length_items hvt hval
  have htot : ((arrays.map Arr.values).map Arr.len).sum = totalItems arrays := by
    rw [List.map_map]; rfl
  rw [htot] at l1 l2
  have hmask : ∀ a ∈ arrays, a.flags.length = a.keys.length ∧ (a.values.vals vt).length = a.values.len ∧
      (∀ i : Nat, a.flags[i]? = some true → ∀ k, a.keys[i]? = some k → k < a.values.len) := by
    intro a ha
    obtain ⟨⟨_, _, r3⟩, _, r5⟩ := raw_dict hvt (h a ha)
    obtain ⟨v, e, _, hv, _⟩ := dict_parts (h a ha)
    refine ⟨by rw [r3]; conv => lhs; rw [e]
               rfl, (item_len hvt hv).1, r5⟩
  have hmx := maxIndexVal_lt w signed
  unfold dictIndices concatDicts
  simp only
  rw [if_pos (Or.inr (by exact hfit))]
  simp only
  have ef : (arrays.map Arr.values).flatMap (fun a => a.nulls.getD (List.replicate a.len true)) = (arrays.map Arr.values).flatMap Arr.flags := rfl
  rw [ef]
  cases hi : ((arrays.map Arr.values).flatMap Arr.flags).idxOf? false with
  | some i =>
    have hg := idxOf_some hi
    have hil : i < totalItems arrays := by
      rw [← l2]
      rcases Nat.lt_or_ge i ((arrays.map Arr.values).flatMap Arr.flags).length with h' | h'
      · exact h'
      · rw [List.getElem?_eq_none h'] at hg; cases hg
    have := concat_mask (vt := vt) [] arrays [] i hmask (by simpa using l3 i hg)
    simp only [List.nil_append, List.append_nil, List.length_nil, Nat.zero_add] at this
    refine ⟨_, _, rfl, hval, rfl, this.1, fun k hk => ?_⟩
    rw [l1]
    have := this.2 k hk
    omega
  | none =>
    simp only [l2]
    rw [if_pos hfit]
    obtain ⟨a0, ha0⟩ := List.exists_mem_of_ne_nil _ hne
    have hex : ∃ a : Arr, a.HasTy vt := ⟨_, hval _ (List.mem_map.2 ⟨a0, ha0, rfl⟩)⟩
    have hnv := nullArr_vals vt hvt hex 1
    have hfm : (arrays.map Arr.values ++ [nullArr vt 1]).flatMap (fun a => a.vals vt) =
        (arrays.map Arr.values).flatMap (fun a => a.vals vt) ++ [Val.null] := by
      rw [List.flatMap_append, List.flatMap_cons, hnv]
      rfl
    have := concat_mask (vt := vt) [Val.null] arrays [] (totalItems arrays) hmask (by
      simp only [List.nil_append]
      rw [List.getD_eq_getElem?_getD, List.getElem?_append_right (by omega), l1, Nat.sub_self]
      rfl)
    simp only [List.nil_append, List.length_nil, Nat.zero_add] at this
    refine ⟨_, _, rfl, ?_, ?_, by rw [hfm]; exact this.1, fun k hk => ?_⟩
    · intro a ha
      rcases List.mem_append.1 ha with ha | ha
      · exact hval a ha
      · simp only [List.mem_singleton] at ha
        subst ha
        exact (nullArr_hasTy vt hvt hex 1).1
    · have hz : (nullArr vt 1).strs.flatten = [] := by
        cases vt <;> simp [nullArr, Arr.strs, Arr.strings, pieces, slice]
      simp [strBytes, List.flatMap_append, hz, -List.length_flatten]
    · rw [hfm, List.length_append, l1]
      have := this.2 k hk
      simp only [List.length_singleton]
      omega

theorem flatMap_keys_none {vt : Ty} : ∀ (arrays : List Arr) (pre : List Val),
    (∀ a ∈ arrays, (a.values.vals vt).length = a.values.len ∧ ∀ k ∈ a.keys, k < a.values.len) →
    (concatKeys pre.length arrays).map (fun k => (pre ++ (arrays.map Arr.values).flatMap (fun a => a.vals vt)).getD k .null) =
      arrays.flatMap (keyVals vt) ∧ ∀ k ∈ concatKeys pre.length arrays, k < pre.length + totalItems arrays
  | [], _, _ => ⟨rfl, fun _ h => nomatch h⟩
  | a :: as, pre, h => by
    obtain ⟨h1, h2⟩ := h a (by simp)
    have hrec := flatMap_keys_none as (pre ++ a.values.vals vt) (fun b hb => h b (by simp [hb]))
    rw [List.length_append, h1] at hrec
    have ht : totalItems (a :: as) = a.values.len + totalItems as := by simp [totalItems]
    rw [concatKeys, ht]
    constructor
    · rw [List.map_append, List.flatMap_cons]
      congr 1
      · rw [List.map_map]
        apply List.map_congr_left
        intro k hk
        have := h2 k hk
        simp only [Function.comp]
        rw [getD_append_right', List.map_cons, List.flatMap_cons, List.getD_eq_getElem?_getD, List.getElem?_append_left (by omega),
          ← List.getD_eq_getElem?_getD]
      · have := hrec.1
        simp only [List.map_cons, List.flatMap_cons, List.append_assoc] at this ⊢
        exact this
    · intro k hk
      rcases List.mem_append.1 hk with hk | hk
      · obtain ⟨q, hq, e⟩ := List.mem_map.1 hk
        have := h2 q hq
        omega
      · have := hrec.2 k hk
        omega

theorem dictIndices_none {w : Nat} {signed : Bool} {vt : Ty} (hvt : vt.item) {arrays : List Arr}
    (h : ∀ a ∈ arrays, a.HasTy (.dict w signed vt)) (hnn : ∀ a ∈ arrays, a.nulls = none) (hfit : KeysFit w signed arrays) :
    ∃ (K : List Nat) (vs : List Arr), dictIndices w signed vt arrays none = some (w, K.flatMap (leBytes w), vs) ∧
      (∀ a ∈ vs, a.HasTy vt) ∧ strBytes vs = strBytes (arrays.map Arr.values) ∧
      K.map (fun k => (vs.flatMap (fun a => a.vals vt)).getD k .null) = arrays.flatMap (keyVals vt) ∧
      (∀ k ∈ K, k < (vs.flatMap (fun a => a.vals vt)).length ∧ k < 256 ^ w) := by
  have hval : ∀ a ∈ arrays.map Arr.values, a.HasTy vt := by
    intro x hx
    obtain ⟨a, ha, e⟩ := List.mem_map.1 hx
    obtain ⟨v, _, _, hv, _⟩ := dict_parts (h a ha)
    exact e ▸ hv
  obtain ⟨l1, l2, l3⟩ := length_items hvt hval
  have htot : ((arrays.map Arr.values).map Arr.len).sum = totalItems arrays := by
    rw [List.map_map]; rfl
  rw [htot] at l1 l2
  have hk := flatMap_keys_none (vt := vt) arrays [] (fun a ha => by
    obtain ⟨v, e, _, hv, _⟩ := dict_parts (h a ha)
    exact ⟨(item_len hvt hv).1, (raw_dict hvt (h a ha)).2.1 (hnn a ha)⟩)
  simp only [List.nil_append, List.length_nil, Nat.zero_add] at hk
  have hmx := maxIndexVal_lt w signed
  unfold dictIndices concatDicts
  simp only
  rw [if_pos (by rcases hfit with h' | h'; exact Or.inr h'; exact Or.inl h'.1)]
  refine ⟨_, _, rfl, hval, rfl, hk.1, fun k hkm => ⟨by rw [l1]; exact hk.2 k hkm, ?_⟩⟩
  rcases hfit with h' | ⟨h', _⟩
  · have := hk.2 k hkm
    omega
  · match arrays, h', hkm with
    | [a], _, hkm =>
      rw [concatKeys_one] at hkm
      obtain ⟨v, _, _, _, hb, _⟩ := dict_parts (h a (by simp))
      have := hb k hkm
      omega

/-- Dictionary arrays: block, encoding and reading. -/
theorem dict_page {c : Codec} (hc : c.Ok) (file : List Nat) (bufs : List Rng) {w : Nat} {signed : Bool} {vt : Ty} (hw : 0 < w) (hvt : vt.item)
    {arrays : List Arr} (h : ∀ a ∈ arrays, a.HasTy (.dict w signed vt)) (hfit : KeysFit w signed arrays)
    (hsz : strBytes (arrays.map Arr.values) < 2 ^ 63) :
    ∃ b b' e k', fromArrays (.dict w signed vt) arrays = some b ∧
      encode c (.already (chooseEncoder false false vt)) b (.dict w signed vt) 0 = some (b', e, k') ∧
      (Placed file bufs b'.buffers → ∃ s, mkSched bufs (.dict w signed vt) e = some s ∧
        ∀ ranges, InB (arrays.flatMap (fun a => a.vals (.dict w signed vt))).length ranges → ∃ d, schedule c file s ranges = some d ∧
          ∀ skip num, skip + num ≤ rows ranges → ∃ x, decode c d skip num = some x ∧
            toArrow x (.dict w signed vt) =
              some (slice (wanted (arrays.flatMap (fun a => a.vals (.dict w signed vt))) ranges) (skip, skip + num))) := by
  have hr := fun a ha => (raw_dict hvt (h a ha)).1
  have hcx := extract_cases hr
  obtain ⟨f1, f2, f3⟩ := raw_flags hr
  -- all values are null
  have hall : ∀ n, arrays.flatMap (fun a => a.vals (.dict w signed vt)) = List.replicate n .null →
      ∃ b b' e k', some (Block.allNull n) = some b ∧
      encode c (.already (chooseEncoder false false vt)) b (.dict w signed vt) 0 = some (b', e, k') ∧
      (Placed file bufs b'.buffers → ∃ s, mkSched bufs (.dict w signed vt) e = some s ∧
        ∀ ranges, InB (arrays.flatMap (fun a => a.vals (.dict w signed vt))).length ranges → ∃ d, schedule c file s ranges = some d ∧
          ∀ skip num, skip + num ≤ rows ranges → ∃ x, decode c d skip num = some x ∧
            toArrow x (.dict w signed vt) =
              some (slice (wanted (arrays.flatMap (fun a => a.vals (.dict w signed vt))) ranges) (skip, skip + num))) := by
    intro n hn
    have hit : ItemsOk c file bufs (.dict w signed vt) vt (.allNull 1) [Val.null] := by
      rcases hvt with hf | hf
      · exact flat_items hc file bufs _ vt hf (.allNull 1) trivial _ rfl (by simp)
      · subst hf
        have := bin_items hc file bufs (.dict w signed (.bin false)) rfl (S := [[]]) (F := [false]) (.allNull 1)
          (Or.inl ⟨rfl, by simp, rfl⟩) rfl (by simp) (by simp)
        exact this
    obtain ⟨b', e, k', h1, h2⟩ := dict_reads c hc file bufs w signed vt hw (.allNull 1) [Val.null] (List.replicate n 0)
      (fun k hk => by
        have := (List.mem_replicate.1 hk).2
        subst this
        exact ⟨by simp, Nat.pow_pos (by omega)⟩) 0 hit
    refine ⟨_, .dict w n ((List.replicate n 0).flatMap (leBytes w)) b', .dict (.noNulls (.flat (8 * w) 0 false)) e 1, k', rfl, by simp only [encode]; rw [h1]; rfl, fun hp => ?_⟩
    obtain ⟨s, hs, h3⟩ := h2 (by simpa only [List.drop_zero, Block.buffers] using hp)
    refine ⟨s, hs, fun ranges hrg => ?_⟩
    have e1 : (List.replicate n 0).map (fun k => [Val.null].getD k Val.null) = List.replicate n Val.null := by
      rw [List.map_replicate]; rfl
    rw [e1] at h3
    rw [hn]
    rw [hn, List.length_replicate] at hrg
    exact h3 ranges (by rw [List.length_replicate]; exact hrg)
  -- keys and items
  have hdict : ∀ (validity : Option (List Bool)) (K : List Nat) (vs : List Arr), dictIndices w signed vt arrays validity = some (w, K.flatMap (leBytes w), vs) →
      (∀ a ∈ vs, a.HasTy vt) → strBytes vs = strBytes (arrays.map Arr.values) →
      K.map (fun k => (vs.flatMap (fun a => a.vals vt)).getD k .null) = arrays.flatMap (fun a => a.vals (.dict w signed vt)) →
      (∀ k ∈ K, k < (vs.flatMap (fun a => a.vals vt)).length ∧ k < 256 ^ w) → (arrays.map Arr.len).sum ≠ 0 →
      ∃ b b' e k', (match dictIndices w signed vt arrays validity with
        | none => none
        | some (w', idx, values) => (fromArrays vt values).map (.dict w' (arrays.map Arr.len).sum idx)) = some b ∧
      encode c (.already (chooseEncoder false false vt)) b (.dict w signed vt) 0 = some (b', e, k') ∧
      (Placed file bufs b'.buffers → ∃ s, mkSched bufs (.dict w signed vt) e = some s ∧
        ∀ ranges, InB (arrays.flatMap (fun a => a.vals (.dict w signed vt))).length ranges → ∃ d, schedule c file s ranges = some d ∧
          ∀ skip num, skip + num ≤ rows ranges → ∃ x, decode c d skip num = some x ∧
            toArrow x (.dict w signed vt) =
              some (slice (wanted (arrays.flatMap (fun a => a.vals (.dict w signed vt))) ranges) (skip, skip + num))) := by
    intro validity K vs hdi hvs hsb hmap hK hn0
    have hKn : K.length = (arrays.map Arr.len).sum := by
      have := congrArg List.length hmap
      rw [List.length_map, f3] at this
      rw [this]
      unfold mask
      rw [List.length_zipWith, f1, f2, Nat.min_self]
    have hpos : 0 < (vs.flatMap (fun a => a.vals vt)).length := by
      have hne : K ≠ [] := by intro hc; rw [hc] at hKn; exact hn0 hKn.symm
      obtain ⟨k, hk⟩ := List.exists_mem_of_ne_nil _ hne
      have := (hK k hk).1
      omega
    obtain ⟨ib, i1, i2, i3⟩ := items_block hc file bufs (.dict w signed vt) vt rfl hvt vs hvs (by omega) hpos
    obtain ⟨b', e, k', h1, h2⟩ := dict_reads c hc file bufs w signed vt hw ib _ K hK 0 i3
    refine ⟨.dict w (arrays.map Arr.len).sum (K.flatMap (leBytes w)) ib, .dict w (arrays.map Arr.len).sum (K.flatMap (leBytes w)) b',
      .dict (.noNulls (.flat (8 * w) 0 false)) e ib.numValues, k', ?_, ?_, fun hp => ?_⟩
    · rw [hdi]
      simp only [i1, Option.map_some]
    · simp only [encode]
      rw [h1]
      rfl
    · rw [← i2] at h2
      obtain ⟨s, hs, h3⟩ := h2 (by simpa only [List.drop_zero, Block.buffers] using hp)
      refine ⟨s, hs, fun ranges hrg => ?_⟩
      rw [hmap] at h3
      rw [← hmap, List.length_map] at hrg
      exact h3 ranges hrg
  unfold fromArrays withNulls
  simp only
  by_cases hn : (arrays.map Arr.len).sum = 0
  · rw [if_pos hn]
    refine hall 0 ?_
    rw [f3]
    rw [hn] at f1 f2
    rw [List.length_eq_zero_iff.1 f1, List.length_eq_zero_iff.1 f2]
    rfl
  · rw [if_neg hn]
    cases he : extractNulls arrays (arrays.map Arr.len).sum with
    | all =>
      rw [he] at hcx
      exact hall _ hcx
    | none =>
      rw [he] at hcx
      obtain ⟨K, vs, g1, g2, g3, g4, g5⟩ := dictIndices_none hvt h hcx.2 hfit
      exact hdict none K vs g1 g2 g3 (by rw [g4, hcx.1]) g5 hn
    | some f =>
      rw [he] at hcx
      have hne : arrays ≠ [] := by intro hc; rw [hc] at hn; exact hn rfl
      have hfit' : totalItems arrays ≤ maxIndexVal w signed := by
        rcases hfit with h' | ⟨_, h'⟩
        · exact h'
        · exfalso
          have : arrays.all (fun a => a.nulls.isNone) = true := List.all_eq_true.2 (fun a ha => by rw [h' a ha]; rfl)
          unfold extractNulls at he
          rw [if_pos this] at he
          cases he
      obtain ⟨K, vs, g1, g2, g3, g4, g5⟩ := dictIndices_some hvt h hne hfit'
      rw [← hcx.1] at g1 g4
      simp only [if_true]
      exact hdict (some f) K vs g1 g2 g3 (by rw [g4, hcx.2.2.2]) g5 hn

end Verif.Phys
