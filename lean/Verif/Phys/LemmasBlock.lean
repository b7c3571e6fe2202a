import Verif.Phys.LemmasFlat
/-! The blocks that are made of arrays hold the values of the arrays. -/
namespace Verif.Phys
open Verif.ListCol

/-- The flags of an array, for all its values. -/
def Arr.flags (a : Arr) : List Bool := a.nulls.getD (List.replicate a.len true)

theorem mask_true (n : Nat) (vs : List Val) (h : vs.length = n) : mask (List.replicate n true) vs = vs := by
  subst h
  unfold mask
  induction vs with
  | nil => rfl
  | cons v vs ih => rw [List.length_cons, List.replicate_succ, List.zipWith_cons_cons, ih]; simp

theorem mask_false (n : Nat) (vs : List Val) (h : vs.length = n) : mask (List.replicate n false) vs = List.replicate n .null := by
  subst h
  unfold mask
  induction vs with
  | nil => rfl
  | cons v vs ih => rw [List.length_cons, List.replicate_succ, List.zipWith_cons_cons, ih, List.replicate_succ]; simp

theorem mask_append (f g : List Bool) (xs ys : List Val) (h : f.length = xs.length) :
    mask (f ++ g) (xs ++ ys) = mask f xs ++ mask g ys := by
  unfold mask
  exact List.zipWith_append h

theorem maskO_eq (v : Option (List Bool)) (vs : List Val) (n : Nat) (h : vs.length = n) :
    maskO v vs = mask (v.getD (List.replicate n true)) vs := by
  cases v with
  | none => exact (mask_true n vs h).symm
  | some f => rfl

theorem count_all_false (l : List Bool) (h : l.count false = l.length) : l = List.replicate l.length false := by
  rw [List.count_eq_length] at h
  exact List.eq_replicate_iff.2 ⟨rfl, fun b hb => (h b hb).symm⟩

/-- What `raw` must be: the values without the nulls. -/
def RawOk (t : Ty) (raw : Arr → List Val) (a : Arr) : Prop :=
  a.vals t = mask a.flags (raw a) ∧ (raw a).length = a.len ∧ a.flags.length = a.len

theorem raw_flags {t : Ty} {raw : Arr → List Val} : ∀ {arrays : List Arr}, (∀ a ∈ arrays, RawOk t raw a) →
    (arrays.flatMap Arr.flags).length = (arrays.map Arr.len).sum ∧ (arrays.flatMap raw).length = (arrays.map Arr.len).sum ∧
      arrays.flatMap (fun a => a.vals t) = mask (arrays.flatMap Arr.flags) (arrays.flatMap raw)
  | [], _ => ⟨rfl, rfl, rfl⟩
  | a :: as, h => by
    obtain ⟨h1, h2, h3⟩ := h a (by simp)
    obtain ⟨h4, h5, h6⟩ := raw_flags (arrays := as) (fun b hb => h b (by simp [hb]))
    simp only [List.flatMap_cons, List.length_append, List.map_cons, List.sum_cons]
    exact ⟨by omega, by omega, by rw [mask_append _ _ _ _ (by omega), h1, h6]⟩

theorem flags_none : ∀ {arrays : List Arr}, arrays.all (fun a => a.nulls.isNone) = true →
    arrays.flatMap Arr.flags = List.replicate (arrays.map Arr.len).sum true
  | [], _ => rfl
  | a :: as, h => by
    rw [List.all_cons, Bool.and_eq_true] at h
    rw [List.flatMap_cons, flags_none h.2, List.map_cons, List.sum_cons, ← List.replicate_append_replicate]
    congr 1
    have := Option.isNone_iff_eq_none.1 h.1
    rw [Arr.flags, this]; rfl

theorem extract_cases {t : Ty} {raw : Arr → List Val} {arrays : List Arr} (h : ∀ a ∈ arrays, RawOk t raw a) :
    match extractNulls arrays (arrays.map Arr.len).sum with
    | .none => arrays.flatMap (fun a => a.vals t) = arrays.flatMap raw ∧ ∀ a ∈ arrays, a.nulls = none
    | .all => arrays.flatMap (fun a => a.vals t) = List.replicate (arrays.map Arr.len).sum .null
    | .some f => f = arrays.flatMap Arr.flags ∧ f.length = (arrays.map Arr.len).sum ∧ ¬ f.count false = f.length ∧
        arrays.flatMap (fun a => a.vals t) = mask f (arrays.flatMap raw) := by
  obtain ⟨h1, h2, h3⟩ := raw_flags h
  unfold extractNulls
  by_cases ha : arrays.all (fun a => a.nulls.isNone) = true
  · rw [if_pos ha]
    refine ⟨?_, fun a hm => Option.isNone_iff_eq_none.1 (List.all_eq_true.1 ha a hm)⟩
    rw [h3, flags_none ha, mask_true _ _ h2]
  · rw [if_neg ha]
    have e : arrays.flatMap (fun a => a.nulls.getD (List.replicate a.len true)) = arrays.flatMap Arr.flags := rfl
    simp only [e]
    by_cases hc : (arrays.flatMap Arr.flags).count false = (arrays.map Arr.len).sum
    · rw [if_pos hc]
      simp only
      rw [h3, count_all_false (arrays.flatMap Arr.flags) (by rw [hc, h1]), h1, mask_false _ _ h2]
    · rw [if_neg hc]
      exact ⟨rfl, h1, by rw [h1]; exact hc, h3⟩

/-- A block of the values of the arrays. -/
def BlockOk (t : Ty) (arrays : List Arr) (b : Block) : Prop :=
  b.Wf t ∧ b.numValues = (arrays.map Arr.len).sum ∧ toArrow b t = some (arrays.flatMap (fun a => a.vals t))

theorem withNulls_ok {t : Ty} {raw : Arr → List Val} {arrays : List Arr} (h : ∀ a ∈ arrays, RawOk t raw a)
    {body : Option (List Bool) → Option Block}
    (hb : ∀ v, ∃ b, body v = some b ∧ b.Wf t ∧ b.plain = true ∧ b.numValues = (arrays.map Arr.len).sum ∧
      toArrow b t = some (arrays.flatMap raw)) :
    ∃ b, withNulls false arrays body = some b ∧ BlockOk t arrays b := by
  obtain ⟨h1, h2, h3⟩ := raw_flags h
  have hc := extract_cases h
  unfold withNulls
  simp only
  by_cases hn : (arrays.map Arr.len).sum = 0
  · rw [if_pos hn]
    refine ⟨_, rfl, trivial, hn.symm, ?_⟩
    rw [h3]
    rw [hn] at h1 h2
    rw [List.length_eq_zero_iff.1 h1, List.length_eq_zero_iff.1 h2]
    rfl
  · rw [if_neg hn]
    cases he : extractNulls arrays (arrays.map Arr.len).sum with
    | none =>
      rw [he] at hc
      obtain ⟨b, e1, e2, e3, e4, e5⟩ := hb none
      exact ⟨b, e1, e2, e4, by rw [e5, hc.1]⟩
    | all =>
      rw [he] at hc
      exact ⟨_, rfl, trivial, rfl, by simp only [toArrow]; rw [hc]⟩
    | some f =>
      rw [he] at hc
      obtain ⟨b, e1, e2, e3, e4, e5⟩ := hb (some f)
      refine ⟨.nullable f b, by simp [e1], ⟨by rw [hc.2.1, e4], e3, e2⟩, by simp [Block.numValues, e4], ?_⟩
      simp only [toArrow, e5, Option.map_some]
      rw [hc.2.2.2]

theorem flags_len {v : Option (List Bool)} {n : Nat} (h : FlagsOk v n) : (v.getD (List.replicate n true)).length = n := by
  cases v with
  | none => simp
  | some f => simpa using h f rfl

/-! ### types -/

theorem raw_bool {a : Arr} (h : a.HasTy .bool) : RawOk .bool (fun a => a.bitData.map .bit) a := by
  cases a <;> simp only [Arr.HasTy] at h
  rename_i v bs
  refine ⟨?_, by simp [Arr.bitData, Arr.len], flags_len h⟩
  simp only [Arr.vals, Arr.bitData]
  exact maskO_eq v _ _ (by simp [Arr.len])

theorem raw_prim {w : Nat} {a : Arr} (h : a.HasTy (.prim w)) :
    RawOk (.prim w) (fun a => (chunk w a.len a.byteData).map .bytes) a ∧ a.byteData.length = a.len * w := by
  cases a <;> simp only [Arr.HasTy] at h
  rename_i v data n
  refine ⟨⟨?_, by simp [length_chunk, Arr.len], flags_len h.1⟩, h.2⟩
  simp only [Arr.vals, Arr.byteData, Arr.len]
  exact maskO_eq v _ _ (by simp [length_chunk, Arr.len])

theorem chunk_flatMap {α β : Type} (d : Nat) (len : α → Nat) (data : α → List β) : ∀ (as : List α), (∀ a ∈ as, (data a).length = len a * d) →
    chunk d (as.map len).sum (as.flatMap data) = as.flatMap (fun a => chunk d (len a) (data a))
  | [], _ => rfl
  | a :: as, h => by
    rw [List.map_cons, List.sum_cons, List.flatMap_cons, List.flatMap_cons, chunk_append _ _ _ _ _ (h a (by simp)),
      chunk_flatMap d len data as (fun b hb => h b (by simp [hb]))]

theorem length_flatMap_mul {α β : Type} (d : Nat) (len : α → Nat) (data : α → List β) : ∀ (as : List α), (∀ a ∈ as, (data a).length = len a * d) →
    (as.flatMap data).length = (as.map len).sum * d
  | [], _ => by simp
  | a :: as, h => by
    rw [List.map_cons, List.sum_cons, List.flatMap_cons, List.length_append, h a (by simp),
      length_flatMap_mul d len data as (fun b hb => h b (by simp [hb])), Nat.add_mul]

theorem map_flatMap' {α β γ : Type} (f : β → γ) (g : α → List β) (as : List α) :
    (as.flatMap g).map f = as.flatMap (fun a => (g a).map f) := by
  induction as with
  | nil => rfl
  | cons a as ih => rw [List.flatMap_cons, List.map_append, ih, List.flatMap_cons]

theorem vals_length : ∀ (t : Ty) (a : Arr), t.flat = true → a.HasTy t → (a.vals t).length = a.len
  | t, a, hf, h => by
    cases a <;> cases t <;> simp only [Arr.HasTy] at h <;> try (cases hf; done)
    · simp [Arr.vals, Arr.len]
    · rename_i v bs
      simp only [Arr.vals]
      rw [maskO_eq v _ _ rfl]
      have := flags_len h
      simp [mask, Arr.len, this]
    · rename_i v data n w
      simp only [Arr.vals]
      rw [maskO_eq v _ _ rfl]
      have := flags_len h.1
      simp [mask, Arr.len, this, length_chunk]
    · rename_i v child n inner d
      simp only [Arr.vals]
      rw [maskO_eq v _ _ rfl]
      have := flags_len h.1
      simp [mask, Arr.len, this, length_chunk]

theorem raw_fsl {inner : Ty} {d : Nat} {a : Arr} (hf : inner.flat = true) (h : a.HasTy (.fsl inner d)) :
    RawOk (.fsl inner d) (fun a => (chunk d a.len (a.child.vals inner)).map .list) a ∧ 0 < d ∧
      a.child.HasTy inner ∧ a.child.len = a.len * d ∧ (a.child.vals inner).length = a.len * d := by
  cases a <;> simp only [Arr.HasTy] at h
  rename_i v child n
  refine ⟨⟨?_, by simp [length_chunk, Arr.len], flags_len h.1⟩, h.2.1, h.2.2.2, h.2.2.1, ?_⟩
  · simp only [Arr.vals, Arr.child, Arr.len]
    exact maskO_eq v _ _ (by simp [length_chunk, Arr.len])
  · rw [Arr.child, vals_length inner child hf h.2.2.2, h.2.2.1]; rfl

theorem fromArrays_flat : ∀ (t : Ty) (arrays : List Arr), t.flat = true → (∀ a ∈ arrays, a.HasTy t) →
    ∃ b, fromArrays t arrays = some b ∧ BlockOk t arrays b
  | .null, arrays, _, h => by
    unfold fromArrays
    have hr : ∀ a ∈ arrays, RawOk .null (fun a => List.replicate a.len .null) a := by
      intro a ha
      have := h a ha
      cases a <;> simp only [Arr.HasTy] at this
      refine ⟨?_, by simp, by simp [Arr.flags, Arr.nulls, Arr.len]⟩
      simp only [Arr.vals, Arr.flags, Arr.nulls, Option.getD_some, Arr.len]
      rw [mask_false _ _ (by simp)]
    have hc := extract_cases hr
    obtain ⟨h1, h2, h3⟩ := raw_flags hr
    have hv : arrays.flatMap (fun a => a.vals .null) = List.replicate (arrays.map Arr.len).sum .null := by
      clear hr hc h1 h2 h3
      induction arrays with
      | nil => rfl
      | cons a as ih =>
        rw [List.flatMap_cons, ih (fun b hb => h b (by simp [hb])), List.map_cons, List.sum_cons, ← List.replicate_append_replicate]
        congr 1
        have := h a (by simp)
        cases a <;> simp only [Arr.HasTy] at this
        rfl
    unfold withNulls
    simp only
    by_cases hn : (arrays.map Arr.len).sum = 0
    · rw [if_pos hn]
      exact ⟨_, rfl, trivial, hn.symm, by rw [hv, hn]; simp [toArrow]⟩
    · rw [if_neg hn]
      cases he : extractNulls arrays (arrays.map Arr.len).sum with
      | none =>
        rw [he] at hc
        exact ⟨_, rfl, trivial, rfl, by simp only [toArrow]; rw [hv]⟩
      | all => exact ⟨_, rfl, trivial, rfl, by simp only [toArrow]; rw [hv]⟩
      | some f =>
        rw [he] at hc
        exfalso
        apply hc.2.2.1
        rw [hc.1]
        clear hr hc h1 h2 h3 hv he hn
        induction arrays with
        | nil => rfl
        | cons a as ih =>
          rw [List.flatMap_cons, List.count_append, List.length_append, ih (fun b hb => h b (by simp [hb]))]
          congr 1
          have := h a (by simp)
          cases a <;> simp only [Arr.HasTy] at this
          simp [Arr.flags, Arr.nulls]
  | .bool, arrays, _, h => by
    unfold fromArrays
    refine withNulls_ok (raw := fun a => a.bitData.map .bit) (fun a ha => raw_bool (h a ha))
      (fun v => ⟨_, rfl, trivial, rfl, ?_, ?_⟩)
    · simp only [Block.numValues]
      have := (raw_flags (fun a ha => raw_bool (h a ha))).2.1
      rw [← map_flatMap'] at this
      simpa using this
    · simp only [toArrow, Option.some.injEq]
      rw [map_flatMap']
  | .prim w, arrays, _, h => by
    unfold fromArrays
    have hl := fun a ha => (raw_prim (h a ha)).2
    refine withNulls_ok (raw := fun a => (chunk w a.len a.byteData).map .bytes) (fun a ha => (raw_prim (h a ha)).1)
      (fun v => ⟨_, rfl, ⟨rfl, length_flatMap_mul w Arr.len Arr.byteData arrays hl⟩, rfl, rfl, ?_⟩)
    simp only [toArrow]
    rw [if_neg (by rw [length_flatMap_mul w Arr.len Arr.byteData arrays hl]; omega), chunk_flatMap w Arr.len Arr.byteData arrays hl,
      map_flatMap']
  | .fsl inner d, arrays, hf, h => by
    unfold fromArrays
    have hf : inner.flat = true := hf
    have hr := fun a ha => raw_fsl hf (h a ha)
    obtain ⟨b, e1, e2, e3, e4⟩ := fromArrays_flat inner (arrays.map Arr.child) hf (by
      intro c hc
      obtain ⟨a, ha, e⟩ := List.mem_map.1 hc
      exact e ▸ (hr a ha).2.2.1)
    by_cases hne : arrays = []
    · subst hne
      exact ⟨_, rfl, trivial, rfl, rfl⟩
    · obtain ⟨a0, ha0⟩ := List.exists_mem_of_ne_nil _ hne
      have hd := (hr a0 ha0).2.1
      have hlen : ((arrays.map Arr.child).map Arr.len).sum = (arrays.map Arr.len).sum * d := by
        have := fun a ha => (hr a ha).2.2.2.1
        clear hr e1 e2 e3 e4 hne ha0
        induction arrays with
        | nil => simp
        | cons a as ih =>
          simp only [List.map_cons, List.sum_cons]
          rw [ih (fun b hb => h b (by simp [hb])) (fun b hb => this b (by simp [hb])), this a (by simp), Nat.add_mul]
      refine withNulls_ok (raw := fun a => (chunk d a.len (a.child.vals inner)).map .list) (fun a ha => (hr a ha).1)
        (fun v => ⟨.fsl d b, by simp [e1], ⟨rfl, hd, by rw [e3, hlen]; exact Nat.mul_mod_left _ _, e2⟩, rfl, ?_, ?_⟩)
      · simp only [Block.numValues]
        rw [e3, hlen, Nat.mul_div_cancel _ hd]
      · simp only [toArrow, e4, Option.map_some, Option.some.injEq]
        have hl := fun a ha => (hr a ha).2.2.2.2
        rw [List.flatMap_map, length_flatMap_mul d Arr.len (fun a => a.child.vals inner) arrays hl, Nat.mul_div_cancel _ hd,
          chunk_flatMap d Arr.len (fun a => a.child.vals inner) arrays hl, map_flatMap']
  | .bin _, _, hf, _ => by cases hf
  | .dict .., _, hf, _ => by cases hf
  | .packed _, _, hf, _ => by cases hf

end Verif.Phys
