import Verif.Phys.LemmasStr
/-! Dictionary columns. -/
namespace Verif.Phys
open Verif.ListCol
open Verif.RowIds.Serde (leBytes fromLe leBytes_length fromLe_leBytes)

/-- The types of the items of a dictionary that can be read. -/
def Ty.item (t : Ty) : Prop := t.flat = true ∨ t = .bin false

/-- Items: written, and read as a whole. -/
def ItemsOk (c : Codec) (file : List Nat) (bufs : List Rng) (T vt : Ty) (b : Block) (vals : List Val) : Prop :=
  ∀ k, ∃ b' e k', encode c (chooseEncoder false false vt) b vt k = some (b', e, k') ∧
    (Placed file (bufs.drop k) b'.buffers → ∃ s, mkSched bufs T e = some s ∧ ∃ d, schedule c file s [(0, vals.length)] = some d ∧
      ∃ x, decode c d 0 vals.length = some x ∧ toArrow x vt = some vals)

theorem whole_range {vs : List Val} : slice (wanted vs [(0, vs.length)]) (0, 0 + vs.length) = vs := by
  rw [wanted_cons]
  simp only [wanted, List.flatMap_nil, List.append_nil, Nat.zero_add]
  rw [slice_all, slice_all]

theorem flat_items {c : Codec} (hc : c.Ok) (file : List Nat) (bufs : List Rng) (T vt : Ty) (hf : vt.flat = true) (b : Block) (hb : b.Wf vt)
    (vals : List Val) (hv : toArrow b vt = some vals) (hpos : 0 < vals.length) : ItemsOk c file bufs T vt b vals := by
  intro k
  obtain ⟨e, h1, h2⟩ := flat_ok hc file bufs T vt false false hf b hb k
  refine ⟨b, e, _, h1, fun hp => ?_⟩
  obtain ⟨s, h3, h4⟩ := h2 hp
  obtain ⟨d, h5, h6⟩ := h4 vals hv [(0, vals.length)] (by
    intro r hr
    simp only [List.mem_singleton] at hr
    subst hr
    exact ⟨hpos, Nat.le_refl _⟩)
  obtain ⟨x, h7, h8⟩ := h6 0 vals.length (by simp [rows]) (fits_zero _ _)
  exact ⟨s, h3, d, h5, x, h7, by rw [h8, whole_range]⟩

theorem bin_items {c : Codec} (hc : c.Ok) (file : List Nat) (bufs : List Rng) (T : Ty) (hT : wideOf T = false) {S : List (List Nat)} {F : List Bool} (b : Block)
    (hb : BinBlock false S F b) (hF : F.length = S.length) (hne : S ≠ []) (hsz : S.flatten.length < 2 ^ 63) :
    ItemsOk c file bufs T (.bin false) b (mask F (S.map .bytes)) := by
  intro k
  have h1 := encodeBinary_ok c false hb hF hne k
  refine ⟨_, _, _, by simpa only [chooseEncoder, Bool.false_eq_true, if_false, encode] using h1, fun hp => ?_⟩
  simp only [Block.buffers, if_true] at hp
  obtain ⟨s, h3, h4⟩ := binary_page c hc false T hF hsz hp
  rw [hT] at h4
  have hl : (mask F (S.map .bytes)).length = S.length := by simp [mask, hF]
  obtain ⟨d, h5, h6⟩ := h4 [(0, (mask F (S.map .bytes)).length)] (by
    intro r hr
    simp only [List.mem_singleton] at hr
    subst hr
    refine ⟨?_, Nat.le_refl _⟩
    rw [hl]
    exact List.length_pos_iff.2 hne) (fun _ h => nomatch h)
  obtain ⟨x, h7, h8⟩ := h6 0 (mask F (S.map .bytes)).length (by simp [rows])
  exact ⟨s, h3, d, h5, x, h7, by rw [h8, whole_range]⟩

/-! ### reading of keys and items -/

theorem mapM_keys (w : Nat) (its : List Val) (K : List Nat) (h : ∀ k ∈ K, k < its.length ∧ k < 256 ^ w) :
    (K.map (leBytes w)).mapM (fun b => its[fromLe b]?) = some (K.map (fun k => its.getD k .null)) := by
  induction K with
  | nil => rfl
  | cons k K ih =>
    have ⟨h1, h2⟩ := h k (by simp)
    rw [List.map_cons, List.mapM_cons, ih (fun x hx => h x (by simp [hx])), fromLe_leBytes w k h2, List.getElem?_eq_getElem h1]
    simp [List.getD_eq_getElem?_getD, h1]

theorem mem_wanted {α : Type} {xs : List α} {rs : List Rng} {x : α} (h : x ∈ wanted xs rs) : x ∈ xs := by
  obtain ⟨r, _, h⟩ := List.mem_flatMap.1 h
  exact List.mem_of_mem_drop (List.mem_of_mem_take h)

theorem mem_slice {α : Type} {xs : List α} {r : Rng} {x : α} (h : x ∈ slice xs r) : x ∈ xs :=
  List.mem_of_mem_drop (List.mem_of_mem_take h)

theorem dict_reads (c : Codec) (hc : c.Ok) (file : List Nat) (bufs : List Rng) (w : Nat) (signed : Bool) (vt : Ty) (hw : 0 < w) (b : Block)
    (its : List Val) (K : List Nat) (hK : ∀ k ∈ K, k < its.length ∧ k < 256 ^ w) (k0 : Nat)
    (hit : ItemsOk c file bufs (.dict w signed vt) vt b its) :
    ∃ b' e k', encode c (chooseEncoder false false vt) b vt (k0 + 1) = some (b', e, k') ∧
      (Placed file (bufs.drop k0) (K.flatMap (leBytes w) :: b'.buffers) →
        ∃ s, mkSched bufs (.dict w signed vt) (.dict (.noNulls (.flat (8 * w) k0 false)) e its.length) = some s ∧
          ∀ ranges, InB K.length ranges → ∃ d, schedule c file s ranges = some d ∧ ∀ skip num, skip + num ≤ rows ranges →
            ∃ x, decode c d skip num = some x ∧
              toArrow x (.dict w signed vt) = some (slice (wanted (K.map (fun k => its.getD k .null)) ranges) (skip, skip + num))) := by
  obtain ⟨b', e, k', h1, h2⟩ := hit (k0 + 1)
  refine ⟨b', e, k', h1, fun hp => ?_⟩
  obtain ⟨⟨p, hp1, hp2⟩, hp3⟩ := placed_cons hp
  obtain ⟨s, h3, d, h4, x, h5, h6⟩ := h2 hp3
  have hl : (K.flatMap (leBytes w)).length = K.length * w := length_leFlat w K
  rw [hl] at hp1 hp2
  refine ⟨.dict (.basicNone (.value w p (K.length * w) false)) s its.length false, ?_, fun ranges hr => ?_⟩
  · simp only [mkSched, hp1, h3]
    rw [if_neg (by omega), if_neg (by omega), Nat.mul_div_cancel_left _ (by omega)]
    rfl
  · obtain ⟨di, hd1, hd2⟩ := value_ok c hc file w K.length (K.flatMap (leBytes w)) hl p (K.length * w) false hl.symm (by simpa using hp2) ranges hr
    refine ⟨.dictDirect x (.basicNone di), ?_, fun skip num hn => ?_⟩
    · rw [schedule, schedule, hd1, h4]
      simp only [Option.map_some, h5, Bool.false_eq_true, if_false]
    · refine ⟨.dict w num (slice (wanted (K.flatMap (leBytes w)) (scale w ranges)) (skip * w, (skip + num) * w)) x, ?_, ?_⟩
      · simp only [decode, hd2 skip num hn]
      · simp only [toArrow, h6]
        rw [if_neg (by rw [value_len w K.length _ hl ranges hr skip num hn]; omega), value_vals w K.length _ hl ranges hr skip num hn,
          chunk_leBytes, wanted_map, slice_map, mapM_keys w its _ (fun k hk => hK k (mem_wanted (mem_slice hk))), wanted_map, slice_map]

/-! ### the block of dictionary arrays -/

/-- The values of items arrays of a readable type are like those of flat types. -/
theorem item_raw {vt : Ty} (hvt : vt.item) {a : Arr} (h : a.HasTy vt) : ∃ raw, RawOk vt raw a := by
  rcases hvt with hf | hf
  · cases vt with
    | null =>
      cases a <;> simp only [Arr.HasTy] at h
      refine ⟨fun a => List.replicate a.len .null, ?_, by simp, by simp [Arr.flags, Arr.nulls, Arr.len]⟩
      simp only [Arr.vals, Arr.flags, Arr.nulls, Option.getD_some, Arr.len]
      rw [mask_false _ _ (by simp)]
    | bool => exact ⟨_, raw_bool h⟩
    | prim w => exact ⟨_, (raw_prim h).1⟩
    | fsl inner d => exact ⟨_, (raw_fsl (show inner.flat = true from hf) h).1⟩
    | bin _ => cases hf
    | dict _ _ _ => cases hf
    | packed _ => cases hf
  · subst hf
    exact ⟨_, (arr_strs h).1⟩

theorem item_len {vt : Ty} (hvt : vt.item) {a : Arr} (h : a.HasTy vt) : (a.vals vt).length = a.len ∧ a.flags.length = a.len ∧
    ∀ k : Nat, a.flags[k]? = some false → (a.vals vt)[k]? = some Val.null := by
  obtain ⟨raw, h1, h2, h3⟩ := item_raw hvt h
  refine ⟨by rw [h1]; simp [mask, h2, h3], h3, fun k hk => ?_⟩
  have hlt : k < (raw a).length := by
    rw [h2, ← h3]
    rcases Nat.lt_or_ge k a.flags.length with h' | h'
    · exact h'
    · rw [List.getElem?_eq_none h'] at hk; cases hk
  rw [h1]
  unfold mask
  rw [List.getElem?_zipWith, hk, List.getElem?_eq_getElem hlt]
  rfl

/-- The keys and values of a dictionary array. -/
theorem dict_parts {w : Nat} {signed : Bool} {vt : Ty} {a : Arr} (h : a.HasTy (.dict w signed vt)) :
    ∃ v, a = .dict v a.keys a.values ∧ FlagsOk v a.keys.length ∧ a.values.HasTy vt ∧ (∀ k ∈ a.keys, k ≤ maxIndexVal w signed) ∧
      0 < w ∧ w ≤ 8 ∧ (∀ i, (v.map (·.getD i false)).getD true = true → ∀ k, a.keys[i]? = some k → k < a.values.len) := by
  cases a <;> simp only [Arr.HasTy] at h
  rename_i v ks values
  exact ⟨v, rfl, h⟩

/-- The value of each key. -/
def keyVals (vt : Ty) (a : Arr) : List Val := a.keys.map (fun k => (a.values.vals vt).getD k .null)

theorem raw_dict {w : Nat} {signed : Bool} {vt : Ty} (hvt : vt.item) {a : Arr} (h : a.HasTy (.dict w signed vt)) :
    RawOk (.dict w signed vt) (keyVals vt) a ∧ (a.nulls = none → ∀ k ∈ a.keys, k < a.values.len) ∧
      (∀ i : Nat, a.flags[i]? = some true → ∀ k, a.keys[i]? = some k → k < a.values.len) := by
  obtain ⟨v, e, hv, hval, hk, hw, hw8, hkey⟩ := dict_parts h
  obtain ⟨hl, hfl, hnull⟩ := item_len hvt hval
  have hlen : a.len = a.keys.length := by rw [e]; rfl
  have hvals : a.vals (.dict w signed vt) = maskO v (keyVals vt a) := by
    conv => lhs; rw [e]
    rfl
  have hkl : (keyVals vt a).length = a.keys.length := by simp [keyVals]
  have hnulls : a.nulls = match a.values.nulls with
      | none => v
      | some f => some (List.zipWith (fun b k => b && f.getD k false) (v.getD (List.replicate a.keys.length true)) a.keys) := by
    conv => lhs; rw [e]
    rfl
  have hvl := flags_len hv
  have hget : ∀ i, (v.getD (List.replicate a.keys.length true))[i]? = some true → (v.map (·.getD i false)).getD true = true := by
    intro i hi
    cases v with
    | none => rfl
    | some f =>
      simp only [Option.getD_some] at hi
      simp [List.getD_eq_getElem?_getD, hi]
  cases hvn : a.values.nulls with
  | none =>
    rw [hvn] at hnulls
    simp only at hnulls
    have hflags : a.flags = v.getD (List.replicate a.keys.length true) := by rw [Arr.flags, hnulls, hlen]
    refine ⟨⟨?_, by rw [hkl, hlen], by rw [hflags, hvl, hlen]⟩, ?_, ?_⟩
    · rw [hvals, maskO_eq v _ _ hkl, hflags]
    · intro hn k hk'
      rw [hnulls] at hn
      obtain ⟨i, hi⟩ := List.mem_iff_getElem?.1 hk'
      exact hkey i (by rw [hn]; rfl) k hi
    · intro i hi k hk'
      rw [hflags] at hi
      exact hkey i (hget i hi) k hk'
  | some f =>
    rw [hvn] at hnulls
    simp only at hnulls
    have hvf : a.values.flags = f := by rw [Arr.flags, hvn]; rfl
    have hflags : a.flags = List.zipWith (fun b k => b && f.getD k false) (v.getD (List.replicate a.keys.length true)) a.keys := by
      rw [Arr.flags, hnulls]; rfl
    refine ⟨⟨?_, by rw [hkl, hlen], by rw [hflags]; simp [hvl, hlen]⟩, ?_, ?_⟩
    · rw [hvals, maskO_eq v _ _ hkl, hflags]
      generalize hV : v.getD (List.replicate a.keys.length true) = V at hvl hget ⊢
      unfold mask keyVals
      apply List.ext_getElem?
      intro i
      simp only [List.getElem?_zipWith, List.getElem?_map]
      cases hVi : V[i]? with
      | none => rfl
      | some b =>
        cases hki : a.keys[i]? with
        | none => rfl
        | some k =>
          simp only [Option.map_some]
          cases b with
          | false => simp
          | true =>
            have hkt := hkey i (hget i (by rw [hVi])) k hki
            simp only [Bool.true_and, if_true]
            rw [hvf] at hnull hfl
            cases hfk : f.getD k false with
            | true => simp
            | false =>
              have hf' : f[k]? = some false := by
                rw [List.getElem?_eq_getElem (by omega)]
                rw [List.getD_eq_getElem?_getD, List.getElem?_eq_getElem (by omega)] at hfk
                simpa using hfk
              have := hnull k hf'
              simp [List.getD_eq_getElem?_getD, this]
    · intro hn; rw [hnulls] at hn; cases hn
    · intro i hi k hk'
      rw [hflags, List.getElem?_zipWith, hk'] at hi
      cases hVi : (v.getD (List.replicate a.keys.length true))[i]? with
      | none => rw [hVi] at hi; cases hi
      | some b =>
        rw [hVi] at hi
        cases b with
        | false => simp at hi
        | true => exact hkey i (hget i hVi) k hk'

/-- The total number of items. -/
def totalItems (arrays : List Arr) : Nat := (arrays.map (fun a => a.values.len)).sum

theorem length_concatKeys : ∀ (arrays : List Arr) (off : Nat), (concatKeys off arrays).length = (arrays.map (fun a => a.keys.length)).sum
  | [], _ => rfl
  | a :: as, off => by simp [concatKeys, length_concatKeys as]

theorem getD_append_right' (xs ys : List Val) (k : Nat) : (xs ++ ys).getD (k + xs.length) .null = ys.getD k .null := by
  rw [List.getD_eq_getElem?_getD, List.getElem?_append_right (by omega), List.getD_eq_getElem?_getD]
  congr 2; omega

/-- Each key of the concatenation has the value it had, where the flag is set. -/
theorem concat_mask {vt : Ty} (post : List Val) : ∀ (arrays : List Arr) (pre : List Val) (i : Nat),
    (∀ a ∈ arrays, a.flags.length = a.keys.length ∧ (a.values.vals vt).length = a.values.len ∧
      (∀ i : Nat, a.flags[i]? = some true → ∀ k, a.keys[i]? = some k → k < a.values.len)) →
    (pre ++ (arrays.map Arr.values).flatMap (fun a => a.vals vt) ++ post).getD i .null = .null →
    (List.zipWith (fun (v : Bool) (k : Nat) => if v then k else i) (arrays.flatMap Arr.flags) (concatKeys pre.length arrays)).map
      (fun k => (pre ++ (arrays.map Arr.values).flatMap (fun a => a.vals vt) ++ post).getD k .null) =
      mask (arrays.flatMap Arr.flags) (arrays.flatMap (keyVals vt)) ∧
    ∀ k ∈ List.zipWith (fun (v : Bool) (k : Nat) => if v then k else i) (arrays.flatMap Arr.flags) (concatKeys pre.length arrays),
      k < pre.length + totalItems arrays ∨ k = i
  | [], _, _, _, _ => ⟨rfl, fun _ h => nomatch h⟩
  | a :: as, pre, i, h, hi => by
    obtain ⟨h1, h2, h3⟩ := h a (by simp)
    have hrec := concat_mask post as (pre ++ a.values.vals vt) i (fun b hb => h b (by simp [hb])) (by
      simpa [List.map_cons, List.flatMap_cons, List.append_assoc] using hi)
    rw [List.length_append, h2] at hrec
    have ht : totalItems (a :: as) = a.values.len + totalItems as := by simp [totalItems]
    have eZ : List.zipWith (fun (v : Bool) (k : Nat) => if v then k else i) ((a :: as).flatMap Arr.flags) (concatKeys pre.length (a :: as)) =
        List.zipWith (fun (v : Bool) (k : Nat) => if v then k else i) a.flags (a.keys.map (· + pre.length)) ++
        List.zipWith (fun (v : Bool) (k : Nat) => if v then k else i) (as.flatMap Arr.flags) (concatKeys (pre.length + a.values.len) as) := by
      rw [List.flatMap_cons, concatKeys, List.zipWith_append (by simp [h1])]
    constructor
    · rw [eZ, List.map_append, List.flatMap_cons, List.flatMap_cons, mask_append _ _ _ _ (by simp [keyVals, h1])]
      congr 1
      · unfold mask keyVals
        apply List.ext_getElem?
        intro j
        simp only [List.getElem?_map, List.getElem?_zipWith]
        cases hf : a.flags[j]? with
        | none => rfl
        | some b =>
          cases hk : a.keys[j]? with
          | none => rfl
          | some k =>
            simp only [Option.map_some]
            cases b with
            | false => simp only [Bool.false_eq_true, if_false, hi]
            | true =>
              simp only [if_true, Option.some.injEq]
              have hlt := h3 j hf k hk
              rw [List.map_cons, List.flatMap_cons, List.append_assoc, getD_append_right', List.append_assoc,
                List.getD_eq_getElem?_getD, List.getElem?_append_left (by omega), ← List.getD_eq_getElem?_getD]
      · have := hrec.1
        simp only [List.map_cons, List.flatMap_cons, List.append_assoc] at this ⊢
        exact this
    · rw [eZ]
      intro k hk
      rw [ht]
      rcases List.mem_append.1 hk with hk | hk
      · obtain ⟨j, hj⟩ := List.mem_iff_getElem?.1 hk
        rw [List.getElem?_zipWith, List.getElem?_map] at hj
        cases hf : a.flags[j]? with
        | none => rw [hf] at hj; cases hj
        | some b =>
          cases hkk : a.keys[j]? with
          | none => rw [hf, hkk] at hj; cases hj
          | some q =>
            rw [hf, hkk] at hj
            simp only [Option.map_some, Option.some.injEq] at hj
            cases b with
            | false => right; simpa using hj.symm
            | true =>
              have := h3 j hf q hkk
              simp only [if_true] at hj
              left; omega
      · have := hrec.2 k hk
        omega

end Verif.Phys
