import Verif.Phys.LemmasDictPage
/-! Strings of low cardinality, stored with a dictionary. -/
namespace Verif.Phys
open Verif.ListCol
open Verif.RowIds.Serde (leBytes fromLe leBytes_length fromLe_leBytes)

theorem nodup_len {α : Type} [DecidableEq α] : ∀ {s t : List α}, s.Nodup → (∀ x ∈ s, x ∈ t) → s.length ≤ t.length
  | [], _, _, _ => Nat.zero_le _
  | x :: s, t, hs, h => by
    have hx := h x (by simp)
    have ⟨h1, h2⟩ := List.nodup_cons.1 hs
    have := nodup_len (t := t.erase x) h2 (fun y hy => by
      rw [List.mem_erase_of_ne]
      · exact h y (by simp [hy])
      · intro e; subst e; exact h1 hy)
    rw [List.length_erase_of_mem hx] at this
    have hp := List.length_pos_of_mem hx
    simp only [List.length_cons]
    omega

/-- A string or null. -/
def ofStr : Option (List Nat) → Val
  | none => .null
  | some s => .bytes s

/-! ### arrays of strings -/

theorem foldl_offs : ∀ (xs : List (Option (List Nat))) (D : List (List Nat)),
    xs.foldl (fun acc x => acc ++ [acc.getLastD 0 + (x.getD []).length]) (offs 0 D) = offs 0 (D ++ xs.map (fun x => x.getD []))
  | [], D => by simp
  | x :: xs, D => by
    rw [List.foldl_cons]
    have e : offs 0 D ++ [(offs 0 D).getLastD 0 + (x.getD []).length] = offs 0 (D ++ [x.getD []]) := by
      rw [offs_append, offs_last]
      rfl
    rw [e, foldl_offs xs, List.map_cons, List.append_assoc]
    rfl

theorem rising_offs : ∀ (S : List (List Nat)) (a : Nat), Rising (offs a S)
  | [], a => trivial
  | s :: ss, a => by
    have := rising_offs ss (a + s.length)
    rw [offs_cons] at this
    rw [offs, offs_cons]
    exact ⟨by omega, this⟩

theorem pieces_offs (S : List (List Nat)) : pieces (offs 0 S) S.flatten = S := by
  have h1 := strs_offs S [] []
  simp only [List.nil_append, List.append_nil, List.length_nil] at h1
  rw [strs_pieces] at h1
  exact (List.map_inj_right (fun _ _ h => by cases h; rfl)).1 h1

theorem mask_strs : ∀ (xs : List (Option (List Nat))), mask (xs.map Option.isSome) ((xs.map (fun x => x.getD [])).map Val.bytes) = xs.map ofStr
  | [] => rfl
  | none :: xs => by
    have := mask_strs xs
    unfold mask at this ⊢
    rw [List.map_cons, List.map_cons, List.map_cons, List.zipWith_cons_cons, this]
    rfl
  | some s :: xs => by
    have := mask_strs xs
    unfold mask at this ⊢
    rw [List.map_cons, List.map_cons, List.map_cons, List.zipWith_cons_cons, this]
    rfl

theorem flatMap_getD (xs : List (Option (List Nat))) : xs.flatMap (fun x => x.getD []) = (xs.map (fun x => x.getD [])).flatten := by
  simp [List.flatMap]

theorem strArr_ok (xs : List (Option (List Nat))) : (strArr xs).HasTy (.bin false) ∧ (strArr xs).vals (.bin false) = xs.map ofStr ∧
    (strArr xs).strs = xs.map (fun x => x.getD []) ∧ (strArr xs).len = xs.length := by
  have hf := foldl_offs xs []
  have h0 : offs 0 ([] : List (List Nat)) = [0] := rfl
  rw [h0, List.nil_append] at hf
  have hs : strArr xs = .bin (if xs.all Option.isSome then none else some (xs.map Option.isSome)) (offs 0 (xs.map (fun x => x.getD [])))
      (xs.map (fun x => x.getD [])).flatten := by
    unfold strArr
    rw [hf, flatMap_getD]
  rw [hs]
  refine ⟨⟨?_, ?_, rising_offs _ _, ?_⟩, ?_, ?_, ?_⟩
  · intro f hf
    rw [length_offs, List.length_map]
    split at hf
    · cases hf
    · simp only [Option.some.injEq] at hf
      rw [← hf, List.length_map]; omega
  · rw [offs_cons]; simp
  · rw [offs_last]; omega
  · simp only [Arr.vals]
    rw [strs_pieces, pieces_offs]
    split
    · rename_i ha
      simp only [maskO]
      rw [← mask_strs, ]
      have : xs.map Option.isSome = List.replicate xs.length true := by
        rw [List.eq_replicate_iff]
        refine ⟨by simp, fun b hb => ?_⟩
        obtain ⟨x, hx, e⟩ := List.mem_map.1 hb
        rw [← e]
        exact List.all_eq_true.1 ha x hx
      rw [this, mask_true _ _ (by simp)]
    · exact mask_strs xs
  · simp only [Arr.strs, Arr.strings]
    exact pieces_offs _
  · simp [Arr.len, length_offs]

theorem strBlock_ok (xs : List (Option (List Nat))) : toArrow (strBlock xs) (.bin false) = some (xs.map ofStr) := by
  have hf := foldl_offs xs []
  have h0 : offs 0 ([] : List (List Nat)) = [0] := rfl
  rw [h0, List.nil_append] at hf
  unfold strBlock
  rw [hf, flatMap_getD]
  simp only [toArrow, if_true, Option.map_some, Option.some.injEq]
  rw [strs_pieces, pieces_offs, mask_strs]

/-! ### the dictionary -/

/-- What an index stands for. -/
def keyStr (D : List (List Nat)) (k : Nat) : Option (Option (List Nat)) :=
  if k = 0 then some none else (D[k - 1]?).map some

structure DictInv (s : DictSt) (ys : List (Option (List Nat))) : Prop where
  cur : s.cur = (s.dict.length + 1) % 256
  nodup : s.dict.Nodup
  seen : ∀ d ∈ s.dict, some d ∈ ys
  found : ∀ st e, s.map.lookup st = some e → 1 ≤ e ∧ e ≤ s.dict.length ∧ s.dict[e - 1]? = some st
  missing : ∀ st, s.map.lookup st = none → st ∉ s.dict
  idx : s.idx.map (keyStr s.dict) = ys.map some
  small : ∀ k ∈ s.idx, k ≤ s.dict.length
  bytes : s.dict.flatten.length ≤ (ys.flatMap (fun x => x.getD [])).length

theorem keyStr_append (D : List (List Nat)) (x : List Nat) (k : Nat) (h : k ≤ D.length) : keyStr (D ++ [x]) k = keyStr D k := by
  unfold keyStr
  split
  · rfl
  · rw [List.getElem?_append_left (by omega)]

theorem dict_step (ds : List (List Nat)) (hds : ds.length ≤ 255) (s : DictSt) (ys : List (Option (List Nat))) (x : Option (List Nat))
    (hm : ∀ st, some st ∈ ys ++ [x] → st ∈ ds) (h : DictInv s ys) : DictInv (s.step x) (ys ++ [x]) := by
  cases x with
  | none =>
    refine ⟨h.cur, h.nodup, fun d hd => List.mem_append_left _ (h.seen d hd), h.found, h.missing, ?_, ?_, ?_⟩
    · simp only [DictSt.step, List.map_append, h.idx]
      rfl
    · intro k hk
      rcases List.mem_append.1 hk with hk | hk
      · exact h.small k hk
      · simp only [List.mem_singleton] at hk; omega
    · have := h.bytes
      simp only [DictSt.step, List.flatMap_append, List.length_append]
      omega
  | some st =>
    unfold DictSt.step
    simp only
    cases hl : s.map.lookup st with
    | some e =>
      obtain ⟨e1, e2, e3⟩ := h.found st e hl
      have hlen : s.dict.length ≤ 255 := by
        have := nodup_len h.nodup (fun d hd => hm d (List.mem_append_left _ (h.seen d hd)))
        omega
      have hne : e ≠ s.cur := by rw [h.cur]; omega
      simp only
      rw [if_neg hne]
      refine ⟨h.cur, h.nodup, fun d hd => List.mem_append_left _ (h.seen d hd), h.found, h.missing, ?_, ?_, ?_⟩
      · simp only [List.map_append, h.idx, List.map_cons, List.map_nil]
        congr 2
        unfold keyStr
        rw [if_neg (by omega), e3]
        rfl
      · intro k hk
        rcases List.mem_append.1 hk with hk | hk
        · exact h.small k hk
        · simp only [List.mem_singleton] at hk; subst hk; exact e2
      · have := h.bytes
        simp only [List.flatMap_append, List.length_append]
        omega
    | none =>
      have hnot := h.missing st hl
      have hnd : (s.dict ++ [st]).Nodup := by
        rw [List.nodup_append]
        refine ⟨h.nodup, by simp, fun a ha b hb => ?_⟩
        simp only [List.mem_singleton] at hb
        subst hb
        intro e; subst e; exact hnot ha
      have hsub : ∀ d ∈ s.dict ++ [st], some d ∈ ys ++ [some st] := by
        intro d hd
        rcases List.mem_append.1 hd with hd | hd
        · exact List.mem_append_left _ (h.seen d hd)
        · simp only [List.mem_singleton] at hd; subst hd; simp
      have hlen : (s.dict ++ [st]).length ≤ 255 := by
        have := nodup_len hnd (fun d hd => hm d (hsub d hd))
        omega
      have hlen' : s.dict.length + 1 ≤ 255 := by simpa using hlen
      have hcur : s.cur = s.dict.length + 1 := by rw [h.cur]; omega
      refine ⟨?_, hnd, hsub, ?_, ?_, ?_, ?_, ?_⟩
      · simp only [List.length_append, List.length_singleton]
        rw [hcur]
      · intro q e hq
        simp only [List.lookup_cons] at hq
        by_cases hqs : q = st
        · subst hqs
          simp only [BEq.rfl, Option.some.injEq] at hq
          subst hq
          simp only [List.length_append, List.length_singleton]
          refine ⟨by omega, by omega, ?_⟩
          rw [hcur, Nat.add_sub_cancel, List.getElem?_append_right (Nat.le_refl _), Nat.sub_self]
          rfl
        · have hb : (q == st) = false := by simpa using hqs
          rw [hb] at hq
          simp only at hq
          obtain ⟨f1, f2, f3⟩ := h.found q e hq
          simp only [List.length_append, List.length_singleton]
          refine ⟨f1, by omega, ?_⟩
          rw [List.getElem?_append_left (by omega)]
          exact f3
      · intro q hq hmem
        simp only [List.lookup_cons] at hq
        by_cases hqs : q = st
        · subst hqs; simp at hq
        · have hb : (q == st) = false := by simpa using hqs
          rw [hb] at hq
          rcases List.mem_append.1 hmem with hmem | hmem
          · exact h.missing q hq hmem
          · simp only [List.mem_singleton] at hmem; exact hqs hmem
      · simp only [List.map_append, List.map_cons, List.map_nil]
        congr 1
        · rw [← h.idx]
          apply List.map_congr_left
          intro k hk
          exact keyStr_append _ _ _ (h.small k hk)
        · unfold keyStr
          rw [if_neg (by omega), hcur, Nat.add_sub_cancel, List.getElem?_append_right (Nat.le_refl _), Nat.sub_self]
          rfl
      · intro k hk
        simp only [List.length_append, List.length_singleton]
        rcases List.mem_append.1 hk with hk | hk
        · have := h.small k hk; omega
        · simp only [List.mem_singleton] at hk; omega
      · have := h.bytes
        simp only [List.flatMap_append, List.flatten_append, List.length_append]
        simp
        simp at this
        omega

theorem dict_fold (ds : List (List Nat)) (hds : ds.length ≤ 255) : ∀ (xs ys : List (Option (List Nat))) (s : DictSt),
    (∀ st, some st ∈ ys ++ xs → st ∈ ds) → DictInv s ys → DictInv (xs.foldl DictSt.step s) (ys ++ xs)
  | [], ys, s, _, h => by simpa using h
  | x :: xs, ys, s, hm, h => by
    rw [List.foldl_cons]
    have := dict_fold ds hds xs (ys ++ [x]) (s.step x) (fun st hst => hm st (by simpa using hst))
      (dict_step ds hds s ys x (fun st hst => hm st (by
        rcases List.mem_append.1 hst with h' | h'
        · exact List.mem_append_left _ h'
        · exact List.mem_append_right _ (by simp only [List.mem_singleton] at h'; simp [h']))) h)
    simpa using this

/-- Indices and items. -/
theorem encodeDict_ok (xs : List (Option (List Nat))) (ds : List (List Nat)) (hds : ds.length ≤ 255) (hm : ∀ st, some st ∈ xs → st ∈ ds) :
    ∃ D : List (List Nat), D.length ≤ 255 ∧ (encodeDict xs).1.map (keyStr D) = xs.map some ∧ (∀ k ∈ (encodeDict xs).1, k ≤ D.length) ∧
      D.flatten.length ≤ (xs.flatMap (fun x => x.getD [])).length ∧
      (encodeDict xs).2 = if D.isEmpty then strArr [none] else strArr (D.map some) := by
  have h := dict_fold ds hds xs [] ⟨[], 1, [], []⟩ (by simpa using hm)
    ⟨rfl, List.nodup_nil, (fun _ h => nomatch h), (fun _ _ h => by simp at h), (fun _ _ => by simp), rfl, (fun _ h => nomatch h), by simp⟩
  rw [List.nil_append] at h
  refine ⟨_, ?_, h.idx, h.small, h.bytes, rfl⟩
  have := nodup_len h.nodup (fun d hd => hm d (h.seen d hd))
  omega

/-! ### the page -/

theorem mapM_keyStr (D : List (List Nat)) (items : List (Option (List Nat)))
    (hi : ∀ k, 1 ≤ k → k ≤ D.length → items[k - 1]? = (D[k - 1]?).map some) : ∀ (K : List Nat) (ys : List (Option (List Nat))),
    (∀ k ∈ K, k ≤ D.length ∧ k < 256) → K.map (keyStr D) = ys.map some →
    ((K.map (fun k => Val.bytes [k])).mapM (fun v =>
        let k := fromLe (v.str.getD [])
        if k = 0 then some none else items[k - 1]?)) = some ys
  | [], [], _, _ => rfl
  | [], _ :: _, _, h => by cases h
  | _ :: _, [], _, h => by cases h
  | k :: K, y :: ys, hk, h => by
    simp only [List.map_cons, List.cons.injEq] at h
    have hrec := mapM_keyStr D items hi K ys (fun q hq => hk q (by simp [hq])) h.2
    rw [List.map_cons, List.mapM_cons, hrec]
    have e : fromLe ((Val.bytes [k]).str.getD []) = k := by simp [Val.str, fromLe]
    simp only [e]
    have hkd := (hk k (by simp)).1
    have h1 := h.1
    unfold keyStr at h1
    by_cases hz : k = 0
    · rw [if_pos hz] at h1 ⊢
      simp only [Option.some.injEq] at h1
      subst h1
      rfl
    · rw [if_neg hz] at h1 ⊢
      rw [hi k (by omega) hkd, h1]
      rfl

theorem ofStr_str (xs : List (Option (List Nat))) : (xs.map ofStr).map Val.str = xs := by
  rw [List.map_map]
  conv => rhs; rw [← List.map_id xs]
  apply List.map_congr_left
  intro x _
  cases x <;> rfl

theorem chunk_one : ∀ (K : List Nat), chunk 1 K.length K = K.map (fun k => [k])
  | [] => rfl
  | k :: K => by
    have := chunk_append 1 1 K.length [k] K (by simp)
    rw [List.singleton_append, Nat.add_comm] at this
    rw [List.length_cons, this, chunk_one K]
    rfl

theorem wanted_length_le {α : Type} {xs : List α} {rs : List Rng} (h : InB xs.length rs) : (wanted xs rs).length = rows rs := length_wanted xs rs h

theorem low_page {c : Codec} (hc : c.Ok) (file : List Nat) (bufs : List Rng) (xs : List (Option (List Nat))) (b : Block)
    (hb : toArrow b (.bin false) = some (xs.map ofStr)) (hne : xs ≠ []) (ds : List (List Nat)) (hds : ds.length ≤ 255)
    (hm : ∀ st, some st ∈ xs → st ∈ ds) (hsz : (xs.flatMap (fun x => x.getD [])).length < 2 ^ 63) :
    ∃ b' e k', encode c .dictionary b (.bin false) 0 = some (b', e, k') ∧
      (Placed file bufs b'.buffers → ∃ s, mkSched bufs (.bin false) e = some s ∧
        ∀ ranges, InB xs.length ranges → ∃ d, schedule c file s ranges = some d ∧
          ∀ skip num, skip + num ≤ rows ranges → ∃ x, decode c d skip num = some x ∧
            toArrow x (.bin false) = some (slice (wanted (xs.map ofStr) ranges) (skip, skip + num))) := by
  obtain ⟨D, d1, d2, d3, d4, d5⟩ := encodeDict_ok xs ds hds hm
  -- the items
  have hit : ∃ items : List (Option (List Nat)), (encodeDict xs).2 = strArr items ∧ items ≠ [] ∧
      (items.map (fun x => x.getD [])).flatten.length < 2 ^ 63 ∧
      (∀ k, 1 ≤ k → k ≤ D.length → items[k - 1]? = (D[k - 1]?).map some) := by
    by_cases hD : D.isEmpty = true
    · rw [if_pos hD] at d5
      refine ⟨[none], d5, by simp, by simp, fun k h1 h2 => ?_⟩
      rw [List.isEmpty_iff] at hD
      subst hD
      simp only [List.length_nil] at h2
      omega
    · rw [if_neg hD] at d5
      refine ⟨D.map some, d5, ?_, ?_, fun k _ _ => by rw [List.getElem?_map]⟩
      · intro h0; apply hD; simpa using h0
      · rw [List.map_map]
        have : (D.map ((fun x : Option (List Nat) => x.getD []) ∘ some)) = D := by
          conv => rhs; rw [← List.map_id D]
          apply List.map_congr_left
          intro x _; rfl
        rw [this]; omega
  obtain ⟨items, i1, i2, i3, i4⟩ := hit
  obtain ⟨a1, a2, a3, a4⟩ := strArr_ok items
  have hbn := fromArrays_bin (wide := false) (arrays := [strArr items]) (by simpa using a1)
  obtain ⟨ib, S, F, b1, b2, b3, b4, b5, b6⟩ := hbn
  simp only [List.map_cons, List.map_nil, List.sum_cons, List.sum_nil, Nat.add_zero, a4] at b3
  have hSne : S ≠ [] := by
    intro h0; rw [h0] at b3
    exact i2 (List.length_eq_zero_iff.1 b3.symm)
  have hSsz : S.flatten.length < 2 ^ 63 := by
    simp only [List.flatMap_cons, List.flatMap_nil, List.append_nil, a3] at b5
    omega
  simp only [List.flatMap_cons, List.flatMap_nil, List.append_nil, a2] at b6
  have hio := bin_items hc file bufs (.bin false) rfl ib b2 b4 hSne hSsz
  rw [← b6] at hio
  have henc := encodeBinary_ok c false b2 b4 hSne 1
  obtain ⟨b', e, k', h1, h2⟩ := hio 1
  simp only [chooseEncoder, Bool.false_eq_true, if_false, encode] at h1
  have hidx : (encodeDict xs).1.length = xs.length := by
    have := congrArg List.length d2
    simpa using this
  refine ⟨.dict 1 (encodeDict xs).1.length (encodeDict xs).1 b', .dict (.noNulls (.flat 8 0 false)) e items.length, k', ?_, fun hp => ?_⟩
  · simp only [encode, if_true, hb]
    cases hx : xs.map ofStr with
    | nil => exact absurd (List.map_eq_nil_iff.1 hx) hne
    | cons v vs =>
      simp only
      rw [← hx, ofStr_str, i1, b1]
      simp only
      rw [h1, a4]
      rfl
  · simp only [Block.buffers] at hp
    obtain ⟨⟨p, hp1, hp2⟩, hp3⟩ := placed_cons (k := 0) (by simpa using hp)
    obtain ⟨s, h3, d, h4, x, h5, h6⟩ := h2 hp3
    rw [List.length_map] at h4 h5
    refine ⟨.dict (.basicNone (.value 1 p (encodeDict xs).1.length false)) s items.length true, ?_, fun ranges hr => ?_⟩
    · simp only [mkSched, hp1, h3]
      rfl
    · rw [← hidx] at hr
      obtain ⟨di, hd1, hd2⟩ := value_ok c hc file 1 (encodeDict xs).1.length (encodeDict xs).1 (by omega) p (encodeDict xs).1.length false rfl
        (by simpa using hp2) ranges hr
      refine ⟨.dictDecode items (.basicNone di), ?_, fun skip num hn => ?_⟩
      · rw [schedule, schedule, hd1, h4]
        simp only [Option.map_some, h5, if_true, h6]
        rw [ofStr_str]
      · refine ⟨strBlock (slice (wanted xs ranges) (skip, skip + num)), ?_, by rw [strBlock_ok, wanted_map, slice_map]⟩
        simp only [decode, hd2 skip num hn, Option.bind_some, toArrow]
        rw [if_neg (by rw [value_len 1 _ _ (by omega) ranges hr skip num hn]; omega), value_vals 1 _ _ (by omega) ranges hr skip num hn,
          chunk_one, wanted_map, slice_map, List.map_map]
        simp only
        have := mapM_keyStr D items i4 (slice (wanted (encodeDict xs).1 ranges) (skip, skip + num)) (slice (wanted xs ranges) (skip, skip + num))
          (fun k hk => by
            have := d3 k (mem_wanted (mem_slice hk))
            omega)
          (by rw [← slice_map, ← wanted_map, d2, wanted_map, slice_map])
        have e2 : (Val.bytes ∘ fun k : Nat => [k]) = fun k => Val.bytes [k] := rfl
        rw [e2, this]
        rfl

/-- The strings of a page. -/
theorem mask_ofStr : ∀ (F : List Bool) (S : List (List Nat)), F.length = S.length →
    ∃ xs : List (Option (List Nat)), mask F (S.map .bytes) = xs.map ofStr ∧ xs.length = S.length ∧
      (xs.flatMap (fun x => x.getD [])).length ≤ S.flatten.length
  | [], [], _ => ⟨[], rfl, rfl, Nat.le_refl _⟩
  | [], _ :: _, h => by cases h
  | _ :: _, [], h => by cases h
  | f :: F, s :: S, h => by
    obtain ⟨xs, h1, h2, h3⟩ := mask_ofStr F S (by simpa using h)
    have hm : mask (f :: F) ((s :: S).map .bytes) = (if f then Val.bytes s else .null) :: mask F (S.map .bytes) := rfl
    cases f with
    | true =>
      refine ⟨some s :: xs, by rw [hm, h1]; rfl, by simp [h2], ?_⟩
      rw [List.flatMap_cons, List.flatten_cons, List.length_append, List.length_append]
      simp only [Option.getD_some]; omega
    | false =>
      refine ⟨none :: xs, by rw [hm, h1]; rfl, by simp [h2], ?_⟩
      rw [List.flatMap_cons, List.flatten_cons, List.length_append, List.length_append]
      simp only [Option.getD_none, List.length_nil]; omega

end Verif.Phys
