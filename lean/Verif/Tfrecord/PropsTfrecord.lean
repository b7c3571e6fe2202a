import Verif.Tfrecord.Lemmas
/-!
# C118: reading a TFRecord file gives one row per record, with the values of its features
-/
namespace Verif.Tfrecord

/-! ## What the rows should be, without the builders of the reader -/

/-- The values of a feature, if its kind is that of the column. -/
def given (d : Decoders) (leaf : Leaf) : Option Feature → Option (List Cell)
  | some (.ints l) => if leaf = .int64 then some (l.map Cell.int) else none
  | some (.floats l) => if leaf = .float32 then some (l.map Cell.float) else none
  | some (.bytes l) => if leaf = .binary then some (l.map Cell.bytes) else if leaf = .utf8 then some (l.map (fun b => Cell.bytes (d.utf8 b))) else none
  | _ => none

/-- The bytes of a value of a tensor. -/
def width : Leaf → Nat
  | .float32 => 4
  | .float64 => 8
  | _ => 2

/-- The values of a tensor that are not in its content. -/
def typed : Leaf → Tensor → List Nat
  | .float16, t => t.halfVal.map (· % 2 ^ 16)
  | .bfloat16, t => t.halfVal.map (· % 2 ^ 16)
  | .float32, t => t.floatVal
  | .float64, t => t.doubleVal
  | _, _ => []

/-- The values of a tensor: those that are given, or else the little-endian numbers of its content. -/
def tensorNumbers (leaf : Leaf) (t : Tensor) : List Nat :=
  if typed leaf t = [] then (List.range (t.content.length / width leaf)).map (fun j => fromLe ((t.content.drop (j * width leaf)).take (width leaf)))
  else typed leaf t

/-- The row of a tensor. -/
def tensorCell (d : Decoders) (leaf : Leaf) (b : List Nat) : Cell :=
  match d.tensor b with
  | none => .null
  | some t => .list ((tensorNumbers leaf t).map Cell.float)

/-- The row of a column for the feature of a record. -/
def row (d : Decoders) (info : TypeInfo) (f : Option Feature) : Cell :=
  match info.fsl, info.inList with
  | none, false => (((given d info.leaf f).getD []).head?).getD .null
  | none, true => .list ((given d info.leaf f).getD [])
  | some size, false =>
    match f with
    | some (.bytes (b :: _)) => tensorCell d info.leaf b
    | _ => .list (List.replicate size .null)
  | some _, true =>
    match f with
    | some (.bytes bs) => .list (bs.map (tensorCell d info.leaf))
    | _ => .list []

/-- A tensor of the type and the shape of a column, with as many values as its shape says. -/
structure TensorFits (d : Decoders) (leaf : Leaf) (size : Nat) (b : List Nat) (t : Tensor) : Prop where
  decoded : d.tensor b = some t
  dims : ∃ l, t.dims = some l ∧ l.foldl (· * ·) 1 = size
  dtype : t.dtype.leaf = some leaf
  count : (tensorNumbers leaf t).length = size

/-- What keeps a tensor from the two faults below: its content is aligned (or is not used, or is of bfloat16), and it has no list of doubles. -/
structure TensorSafe (leaf : Leaf) (t : Tensor) : Prop where
  aligned : leaf ≠ .bfloat16 → t.addr % width leaf = 0 ∨ typed leaf t ≠ []
  noDoubles : leaf = .float64 → t.doubleVal = [] ∧ t.floatVal = []

/-- The features that a column can have: numbers and strings. -/
def Plain (leaf : Leaf) : Prop := leaf = .int64 ∨ leaf = .float32 ∨ leaf = .binary ∨ leaf = .utf8

/-- A feature that a column takes as the type of the column says: one value or none at all if it is no list, and tensors of the type. -/
def Fits (d : Decoders) (info : TypeInfo) (f : Option Feature) : Prop :=
  match info.fsl, info.inList with
  | none, false => Plain info.leaf ∧ ∀ l, given d info.leaf f = some l → l.length = 1
  | none, true => Plain info.leaf ∧ f ≠ some .unset
  | some size, false => 0 < size ∧ ∀ bs, f = some (.bytes bs) → ∃ b t, bs = [b] ∧ TensorFits d info.leaf size b t
  | some size, true => 0 < size ∧ f ≠ some .unset ∧ ∀ bs, f = some (.bytes bs) → ∀ b ∈ bs, ∃ t, TensorFits d info.leaf size b t

/-- The tensors of a feature are safe; and a list of tensors is not missing. -/
def Safe (d : Decoders) (info : TypeInfo) (f : Option Feature) : Prop :=
  info.fsl.isSome → (∀ bs, f = some (.bytes bs) → ∀ b ∈ bs, ∀ t, d.tensor b = some t → TensorSafe info.leaf t) ∧
    (info.inList = true → ∃ bs, f = some (.bytes bs))

/-- The column `k` of some batches, one after the other. -/
def columnOf (k : Nat) (batches : List (List (List Cell))) : List Cell := batches.flatMap (fun b => (b[k]?).getD [])

/-- **The full claim**: whatever the size of the batches, the rows of each column are those of the records, if the features fit the types of the columns. -/
def C118_statement : Prop :=
  ∀ (d : Decoders) (schema : List (Nat × TypeInfo)) (n : Nat) (records : List Record), 0 < n → schema ≠ [] → (∀ r ∈ records, r ≠ none) →
    (∀ c ∈ schema, ∀ r ∈ records, Fits d c.2 (featureOf c.1 r)) →
    ∃ batches, readTfrecord d schema n records = some batches ∧
      ∀ (k : Nat) (c : Nat × TypeInfo), schema[k]? = some c → columnOf k batches = records.map (fun r => row d c.2 (featureOf c.1 r))

/-! ## Tensors -/

/-- A safe tensor adds its values. -/
theorem C118_tensor_partial (leaf : Leaf) (t : Tensor) (hl : leaf = .float16 ∨ leaf = .bfloat16 ∨ leaf = .float32 ∨ leaf = .float64) (h : TensorSafe leaf t) :
    tensorValues leaf t = some (tensorNumbers leaf t) := by
  have key : ∀ w, 0 < w → t.addr % w = 0 → fromSlice w t.addr t.content = (List.range (t.content.length / w)).map (fun j => fromLe ((t.content.drop (j * w)).take w)) := by
    intro w hw ha
    rw [fromSlice_eq w t.addr hw, prefixLen_aligned w t.addr _ hw ha]
    simp [pieces]
  rcases hl with rfl | rfl | rfl | rfl
  · cases hv : t.halfVal with
    | nil =>
      have ha : t.addr % 2 = 0 := by
        rcases h.aligned (by decide) with ha | ha
        · exact ha
        · simp [typed, hv] at ha
      simp only [tensorValues, tensorNumbers, typed, hv, List.map_nil, if_pos, width, List.isEmpty_nil]
      rw [key 2 (by omega) ha]
    | cons a l => simp [tensorValues, tensorNumbers, typed, hv]
  · cases hv : t.halfVal with
    | nil =>
      simp only [tensorValues, tensorNumbers, typed, hv, List.map_nil, if_pos, width, List.isEmpty_nil]
      rw [chunksExact_eq 2 (by omega)]
      simp [pieces]
    | cons a l => simp [tensorValues, tensorNumbers, typed, hv]
  · cases hv : t.floatVal with
    | nil =>
      have ha : t.addr % 4 = 0 := by
        rcases h.aligned (by decide) with ha | ha
        · exact ha
        · simp [typed, hv] at ha
      simp only [tensorValues, tensorNumbers, typed, hv, if_pos, width, List.isEmpty_nil]
      rw [key 4 (by omega) ha]
    | cons a l => simp [tensorValues, tensorNumbers, typed, hv]
  · obtain ⟨hd, hf⟩ := h.noDoubles rfl
    have ha : t.addr % 8 = 0 := by
      rcases h.aligned (by decide) with ha | ha
      · exact ha
      · simp [typed, hd] at ha
    simp only [tensorValues, tensorNumbers, typed, hd, hf, if_pos, width, List.isEmpty_nil]
    rw [key 8 (by omega) ha]

/-- **Violated**: if the content is not aligned, the bytes before the first aligned address are dropped: every value is read that many bytes too late, and a content of `k` values gives one value less. -/
theorem C118_unaligned_violated (w addr : Nat) (content : List Nat) (hw : 0 < w) (ha : addr % w ≠ 0) (hc : w ≤ content.length) :
    (fromSlice w addr content).length = (content.length - (w - addr % w)) / w ∧
      (∀ j, j < (content.length - (w - addr % w)) / w → (fromSlice w addr content)[j]? = some (fromLe ((content.drop ((w - addr % w) + j * w)).take w))) ∧
      ∀ k, content.length = k * w → (fromSlice w addr content).length + 1 = k := by
  have hlt := Nat.mod_lt addr hw
  have hp : prefixLen w addr content.length = w - addr % w := by
    unfold prefixLen
    rw [Nat.mod_eq_of_lt (show w - addr % w < w by omega)]
    omega
  have hlen : (fromSlice w addr content).length = (content.length - (w - addr % w)) / w := by
    rw [fromSlice_eq w addr hw, hp]
    simp [pieces]
  refine ⟨hlen, fun j hj => ?_, fun k hk => ?_⟩
  · rw [fromSlice_eq w addr hw, hp]
    simp only [pieces, List.map_map, List.length_drop, List.getElem?_map, List.getElem?_range hj, Option.map_some, Function.comp_apply, List.drop_drop]
  · rw [hlen]
    have hk0 : 0 < k := by
      cases k with
      | zero => rw [Nat.zero_mul] at hk; omega
      | succ k => omega
    obtain ⟨k', rfl⟩ : ∃ k', k = k' + 1 := ⟨k - 1, by omega⟩
    rw [Nat.succ_mul] at hk
    have : content.length - (w - addr % w) = addr % w + w * k' := by rw [Nat.mul_comm w k']; omega
    rw [this, Nat.add_mul_div_left _ _ hw, Nat.div_eq_of_lt hlt]
    omega

/-- **Violated**: the doubles of a tensor that are given in `double_val` are never used unless it has floats as well; without content nothing is read. -/
theorem C118_double_violated (t : Tensor) (hf : t.floatVal = []) (hc : t.content = []) : tensorValues .float64 t = some [] := by
  simp only [tensorValues, hf, List.isEmpty_nil, if_pos, hc]
  rw [fromSlice_eq 8 t.addr (by omega)]
  simp [pieces]

theorem float_leaf (x : Dtype) (leaf : Leaf) (h : x.leaf = some leaf) : leaf = .float16 ∨ leaf = .bfloat16 ∨ leaf = .float32 ∨ leaf = .float64 := by
  cases x <;> simp [Dtype.leaf] at h <;> subst h <;> simp

theorem decodeAll_fits (d : Decoders) (info : TypeInfo) (size : Nat) (hs : info.fsl = some size) (bs : List (List Nat))
    (h : ∀ b ∈ bs, ∃ t, TensorFits d info.leaf size b t ∧ TensorSafe info.leaf t) :
    ∃ ts, decodeAll d bs = some ts ∧ ∃ vs : List (List Cell), vs.map Cell.list = bs.map (tensorCell d info.leaf) ∧ (∀ v ∈ vs, v.length = size) ∧
      (tensorsValues info ts).map (·.map Cell.float) = some vs.flatten := by
  induction bs with
  | nil => exact ⟨[], rfl, [], rfl, fun _ h => (nomatch h), rfl⟩
  | cons b bs ih =>
    obtain ⟨ts, hts, vs, hvs, hlen, hval⟩ := ih (fun b hb => h b (by simp [hb]))
    obtain ⟨t, hfit, hsafe⟩ := h b (by simp)
    refine ⟨t :: ts, ?_, (tensorNumbers info.leaf t).map Cell.float :: vs, ?_, ?_, ?_⟩
    · unfold decodeAll
      rw [hfit.decoded, hts]
    · rw [List.map_cons, List.map_cons, hvs]
      simp only [tensorCell, hfit.decoded]
    · intro v hv
      rcases List.mem_cons.mp hv with rfl | hv
      · rw [List.length_map, hfit.count]
      · exact hlen v hv
    · have hv : valid info t = true := by
        obtain ⟨l, hl, hp⟩ := hfit.dims
        unfold valid
        rw [hl]
        simp [hs, hp, hfit.dtype]
      unfold tensorsValues
      rw [if_pos hv, C118_tensor_partial info.leaf t (float_leaf _ _ hfit.dtype) hsafe]
      cases hr : tensorsValues info ts with
      | none => rw [hr] at hval; exact nomatch hval
      | some r =>
        rw [hr] at hval
        simp only [Option.map_some, Option.some.injEq] at hval ⊢
        rw [List.map_append, hval, List.flatten_cons]

/-! ## Columns -/

/-- The values that a plain feature adds. -/
theorem plain_values (d : Decoders) (info : TypeInfo) (hp : Plain info.leaf) (f : Option Feature) :
    plainFeature d info f = some ((given d info.leaf f).getD (if info.inList then [] else [Cell.null])) := by
  unfold plainFeature
  rcases hp with h | h | h | h <;> rw [h] <;> cases f with
  | none => rfl
  | some f => cases f <;> rfl

theorem plain_elements (d : Decoders) (info : TypeInfo) (hs : info.fsl = none) (hp : Plain info.leaf) (f : Option Feature) (hf : f ≠ some .unset) :
    elements info f = some ((given d info.leaf f).getD []).length := by
  rcases hp with h | h | h | h <;> cases f with
  | none => simp [elements, given]
  | some f =>
    cases f with
    | unset => exact absurd rfl hf
    | _ => simp [elements, given, h, hs]

/-- **A column of features that fit it and are safe has the rows of the records.** -/
theorem C118_column_partial (d : Decoders) (name : Nat) (info : TypeInfo) (records : List Record) (hr : ∀ r ∈ records, r ≠ none)
    (hf : ∀ r ∈ records, Fits d info (featureOf name r)) (hs : ∀ r ∈ records, Safe d info (featureOf name r)) :
    convertColumn d name info records = some (records.map (fun r => row d info (featureOf name r))) := by
  unfold convertColumn
  rw [features_eq name records hr]
  simp only
  have hf' : ∀ f ∈ records.map (featureOf name), Fits d info f := by
    intro f h
    obtain ⟨r, hr, rfl⟩ := List.mem_map.mp h
    exact hf r hr
  have hs' : ∀ f ∈ records.map (featureOf name), Safe d info f := by
    intro f h
    obtain ⟨r, hr, rfl⟩ := List.mem_map.mp h
    exact hs r hr
  have hmap : records.map (fun r => row d info (featureOf name r)) = (records.map (featureOf name)).map (row d info) := by rw [List.map_map]; rfl
  rw [hmap]
  generalize records.map (featureOf name) = fs at hf' hs'
  obtain ⟨leaf, fsl, inList⟩ := info
  cases fsl with
  | none =>
    cases inList with
    | false =>
      have hv : ∀ f ∈ fs, featureValues d ⟨leaf, none, false⟩ f = some [row d ⟨leaf, none, false⟩ f] := by
        intro f h
        obtain ⟨hp, h1⟩ := hf' f h
        show plainFeature d ⟨leaf, none, false⟩ f = _
        rw [plain_values d _ hp]
        simp only [row]
        simp only at h1
        cases hg : given d leaf f with
        | none => rfl
        | some l =>
          match l, h1 l hg with
          | [x], _ => rfl
      rw [leafValues_eq d _ fs _ hv]
      simp only [Bool.false_eq_true, if_false]
      congr 1
      clear hv hf' hs' hmap
      induction fs with
      | nil => rfl
      | cons f fs ih => rw [List.map_cons, List.flatten_cons, ih]; rfl
    | true =>
      have hv : ∀ f ∈ fs, featureValues d ⟨leaf, none, true⟩ f = some ((given d leaf f).getD []) := by
        intro f h
        exact plain_values d ⟨leaf, none, true⟩ (hf' f h).1 f
      have he : ∀ f ∈ fs, elements ⟨leaf, none, true⟩ f = some ((given d leaf f).getD []).length :=
        fun f h => plain_elements d ⟨leaf, none, true⟩ rfl (hf' f h).1 f (hf' f h).2
      rw [leafValues_eq d _ fs _ hv, lengths_eq _ fs _ he]
      simp only [if_true]
      have := split_flatten (fs.map (fun f => (given d leaf f).getD []))
      rw [List.map_map, List.map_map] at this
      exact this
  | some size =>
    cases inList with
    | false =>
      have hv : ∀ f ∈ fs, ∃ v : List Cell, v.length = size ∧ featureValues d ⟨leaf, some size, false⟩ f = some v ∧ Cell.list v = row d ⟨leaf, some size, false⟩ f := by
        intro f h
        obtain ⟨hp, h1⟩ := hf' f h
        have h2 := (hs' f h rfl).1
        have hnull : ∀ g : Option Feature, (∀ bs, g ≠ some (.bytes bs)) → featureValues d ⟨leaf, some size, false⟩ g = some (List.replicate size .null) ∧
            row d ⟨leaf, some size, false⟩ g = .list (List.replicate size .null) := by
          intro g hg
          cases g with
          | none => exact ⟨rfl, rfl⟩
          | some g =>
            cases g with
            | bytes bs => exact absurd rfl (hg bs)
            | _ => exact ⟨rfl, rfl⟩
        by_cases hb : ∃ bs, f = some (.bytes bs)
        · obtain ⟨bs, rfl⟩ := hb
          obtain ⟨b, t, rfl, hfit⟩ := h1 bs rfl
          obtain ⟨ts, hts, vs, hvs, hlen, hval⟩ := decodeAll_fits d ⟨leaf, some size, false⟩ size rfl [b]
            (by
              intro b' hb'
              have : b' = b := by simpa using hb'
              subst this
              exact ⟨t, hfit, h2 _ rfl b' (by simp) t hfit.decoded⟩)
          obtain ⟨v, rfl⟩ : ∃ v, vs = [v] := by
            have hl := congrArg List.length hvs
            simp only [List.length_map, List.length_cons, List.length_nil] at hl
            exact List.length_eq_one_iff.mp hl
          refine ⟨v, hlen v (by simp), ?_, ?_⟩
          · simp only [featureValues, tensorFeature, hts, hval]
            simp
          · simp only [List.map_cons, List.map_nil, List.cons.injEq, and_true] at hvs
            exact hvs
        · have hb' : ∀ bs, f ≠ some (.bytes bs) := fun bs h => hb ⟨bs, h⟩
          obtain ⟨e1, e2⟩ := hnull f hb'
          exact ⟨_, by simp, e1, e2.symm⟩
      have hsize : fs ≠ [] → 0 < size := by
        intro hne
        cases fs with
        | nil => exact absurd rfl hne
        | cons f fs => exact (hf' f (by simp)).1
      have hall : ∃ vs : List (List Cell), (∀ v ∈ vs, v.length = size) ∧ leafValues d ⟨leaf, some size, false⟩ fs = some vs.flatten ∧
          vs.map Cell.list = fs.map (row d ⟨leaf, some size, false⟩) := by
        clear hf' hs' hmap hsize
        induction fs with
        | nil => exact ⟨[], fun _ h => (nomatch h), rfl, rfl⟩
        | cons f fs ih =>
          obtain ⟨vs, h1, h2, h3⟩ := ih (fun g hg => hv g (by simp [hg]))
          obtain ⟨v, e1, e2, e3⟩ := hv f (by simp)
          refine ⟨v :: vs, ?_, ?_, ?_⟩
          · intro u hu
            rcases List.mem_cons.mp hu with rfl | hu
            · exact e1
            · exact h1 u hu
          · unfold leafValues
            rw [e2, h2]
            rfl
          · rw [List.map_cons, List.map_cons, e3, h3]
      obtain ⟨vs, h1, h2, h3⟩ := hall
      rw [h2]
      simp only [Bool.false_eq_true, if_false]
      by_cases hne : fs = []
      · subst hne
        have : vs = [] := by simpa using h3
        subst this
        rfl
      · rw [group_flatten size (hsize hne) vs h1, h3]
    | true =>
      have hv : ∀ f ∈ fs, ∃ vs : List (List Cell), (∀ v ∈ vs, v.length = size) ∧ featureValues d ⟨leaf, some size, true⟩ f = some vs.flatten ∧
          elements ⟨leaf, some size, true⟩ f = some (vs.map Cell.list).length ∧ Cell.list (vs.map Cell.list) = row d ⟨leaf, some size, true⟩ f := by
        intro f h
        obtain ⟨hp, _, h1⟩ := hf' f h
        obtain ⟨h2, h3⟩ := hs' f h rfl
        obtain ⟨bs, rfl⟩ := h3 rfl
        obtain ⟨ts, hts, vs, hvs, hlen, hval⟩ := decodeAll_fits d ⟨leaf, some size, true⟩ size rfl bs
          (by
            intro b hb
            obtain ⟨t, hfit⟩ := h1 bs rfl b hb
            exact ⟨t, hfit, h2 bs rfl b hb t hfit.decoded⟩)
        refine ⟨vs, hlen, ?_, ?_, ?_⟩
        · simp only [featureValues, tensorFeature, hts, hval]
        · rw [hvs]
          simp [elements]
        · rw [hvs]
          rfl
      have hsize : fs ≠ [] → 0 < size := by
        intro hne
        cases fs with
        | nil => exact absurd rfl hne
        | cons f fs => exact (hf' f (by simp)).1
      have hall : ∃ vss : List (List (List Cell)), (∀ vs ∈ vss, ∀ v ∈ vs, v.length = size) ∧ leafValues d ⟨leaf, some size, true⟩ fs = some vss.flatten.flatten ∧
          lengths ⟨leaf, some size, true⟩ fs = some ((vss.map (·.map Cell.list)).map (·.length)) ∧
          (vss.map (·.map Cell.list)).map Cell.list = fs.map (row d ⟨leaf, some size, true⟩) := by
        clear hf' hs' hmap hsize
        induction fs with
        | nil => exact ⟨[], fun _ h => (nomatch h), rfl, rfl, rfl⟩
        | cons f fs ih =>
          obtain ⟨vss, h1, h2, h3, h4⟩ := ih (fun g hg => hv g (by simp [hg]))
          obtain ⟨vs, e1, e2, e3, e4⟩ := hv f (by simp)
          refine ⟨vs :: vss, ?_, ?_, ?_, ?_⟩
          · intro u hu
            rcases List.mem_cons.mp hu with rfl | hu
            · exact e1
            · exact h1 u hu
          · unfold leafValues
            rw [e2, h2]
            simp
          · unfold lengths
            rw [e3, h3]
            rfl
          · rw [List.map_cons, List.map_cons, List.map_cons, e4, h4]
      obtain ⟨vss, h1, h2, h3, h4⟩ := hall
      rw [h2, h3]
      simp only [if_true]
      by_cases hne : fs = []
      · subst hne
        have : vss = [] := by simpa using h4
        subst this
        rfl
      · rw [group_flatten size (hsize hne) vss.flatten
          (by
            intro v hv'
            obtain ⟨vs, h5, h6⟩ := List.mem_flatten.mp hv'
            exact h1 vs h5 v h6), List.map_flatten, split_flatten, h4]

/-! ## Whole files -/

theorem columns_partial (d : Decoders) (records : List Record) (schema : List (Nat × TypeInfo)) (hr : ∀ r ∈ records, r ≠ none)
    (hf : ∀ c ∈ schema, ∀ r ∈ records, Fits d c.2 (featureOf c.1 r)) (hs : ∀ c ∈ schema, ∀ r ∈ records, Safe d c.2 (featureOf c.1 r)) :
    convertColumns d records schema = some (schema.map (fun c => records.map (fun r => row d c.2 (featureOf c.1 r)))) := by
  induction schema with
  | nil => rfl
  | cons c schema ih =>
    obtain ⟨name, info⟩ := c
    unfold convertColumns
    rw [C118_column_partial d name info records hr (hf (name, info) (by simp)) (hs (name, info) (by simp)),
      ih (fun c hc => hf c (by simp [hc])) (fun c hc => hs c (by simp [hc]))]
    rfl

theorem batch_partial (d : Decoders) (records : List Record) (schema : List (Nat × TypeInfo)) (hne : schema ≠ []) (hr : ∀ r ∈ records, r ≠ none)
    (hf : ∀ c ∈ schema, ∀ r ∈ records, Fits d c.2 (featureOf c.1 r)) (hs : ∀ c ∈ schema, ∀ r ∈ records, Safe d c.2 (featureOf c.1 r)) :
    convertBatch d schema records = some (schema.map (fun c => records.map (fun r => row d c.2 (featureOf c.1 r)))) := by
  unfold convertBatch
  rw [columns_partial d records schema hr hf hs]
  cases schema with
  | nil => exact absurd rfl hne
  | cons c schema =>
    simp only [List.map_cons]
    rw [if_pos]
    rw [List.all_eq_true]
    intro x hx
    obtain ⟨c', _, rfl⟩ := List.mem_map.mp hx
    simp

/-- **The rows of a whole file are those of its records**, for batches of any size, if its features fit the columns and are safe (see `Safe`). -/
theorem C118_read_partial (d : Decoders) (schema : List (Nat × TypeInfo)) (n : Nat) (records : List Record) (hn : 0 < n) (hne : schema ≠ []) (hr : ∀ r ∈ records, r ≠ none)
    (hf : ∀ c ∈ schema, ∀ r ∈ records, Fits d c.2 (featureOf c.1 r)) (hs : ∀ c ∈ schema, ∀ r ∈ records, Safe d c.2 (featureOf c.1 r)) :
    ∃ batches, readTfrecord d schema n records = some batches ∧
      ∀ (k : Nat) (c : Nat × TypeInfo), schema[k]? = some c → columnOf k batches = records.map (fun r => row d c.2 (featureOf c.1 r)) := by
  have key : ∀ parts : List (List Record), (∀ p ∈ parts, ∀ r ∈ p, r ∈ records) →
      convertAll d schema parts = some (parts.map (fun p => schema.map (fun c => p.map (fun r => row d c.2 (featureOf c.1 r))))) := by
    intro parts hp
    induction parts with
    | nil => rfl
    | cons p parts ih =>
      unfold convertAll
      have hm := hp p (by simp)
      rw [batch_partial d p schema hne (fun r h => hr r (hm r h)) (fun c hc r h => hf c hc r (hm r h)) (fun c hc r h => hs c hc r (hm r h)),
        ih (fun q hq => hp q (by simp [hq]))]
      rfl
  refine ⟨_, key _ (fun p hp r h => mem_batchesAux n _ records p hp r h), fun k c hk => ?_⟩
  unfold columnOf
  rw [List.flatMap_map]
  have hcol : ∀ p : List Record, ((schema.map (fun c => p.map (fun r => row d c.2 (featureOf c.1 r))))[k]?).getD [] = p.map (fun r => row d c.2 (featureOf c.1 r)) := by
    intro p
    rw [List.getElem?_map, hk]
    rfl
  simp only [hcol]
  rw [List.flatMap_def, ← List.map_flatten, batchesAux_flatten n hn _ _ (Nat.le_refl _)]

/-! ## Inference -/

theorem inferFrom_known (isString : Bool) (name : Nat) (records : List Record) (k : Leaf) (r : Bool) (res : Option (Leaf × Bool))
    (h : inferFrom isString name (some (k, r)) records = some res) :
    ∃ r', res = some (k, r') ∧ (r = true → r' = true) ∧
      ∀ x ∈ records, ∀ f, featureOf name x = some f → leafOf isString f = some k ∧ (repeated f = true → r' = true) := by
  induction records generalizing r with
  | nil =>
    simp only [inferFrom, Option.some.injEq] at h
    exact ⟨r, h.symm, id, fun _ h => (nomatch h)⟩
  | cons x records ih =>
    cases x with
    | none =>
      unfold inferFrom at h
      obtain ⟨r', h1, h2, h3⟩ := ih r h
      refine ⟨r', h1, h2, fun y hy f hf => ?_⟩
      rcases List.mem_cons.mp hy with rfl | hy
      · exact nomatch hf
      · exact h3 y hy f hf
    | some fs =>
      unfold inferFrom at h
      cases hfe : (fs.find? (fun p => p.1 == name)).map (·.2) with
      | none =>
        rw [hfe] at h
        obtain ⟨r', h1, h2, h3⟩ := ih r h
        refine ⟨r', h1, h2, fun y hy f hf => ?_⟩
        rcases List.mem_cons.mp hy with rfl | hy
        · rw [featureOf, hfe] at hf; exact nomatch hf
        · exact h3 y hy f hf
      | some g =>
        rw [hfe] at h
        simp only at h
        cases hl : leafOf isString g with
        | none => rw [hl] at h; exact nomatch h
        | some l =>
          rw [hl] at h
          simp only at h
          by_cases hkl : k = l
          · rw [if_pos hkl] at h
            obtain ⟨r', h1, h2, h3⟩ := ih _ h
            refine ⟨r', h1, fun hr => h2 (by simp [hr]), fun y hy f hf => ?_⟩
            rcases List.mem_cons.mp hy with rfl | hy
            · rw [featureOf, hfe, Option.some.injEq] at hf
              subst hf
              exact ⟨by rw [hl, hkl], fun hr => h2 (by simp [hr])⟩
            · exact h3 y hy f hf
          · rw [if_neg hkl] at h; exact nomatch h

theorem inferFrom_unknown (isString : Bool) (name : Nat) (records : List Record) (k : Leaf) (r : Bool) (h : inferFrom isString name none records = some (some (k, r))) :
    ∀ x ∈ records, ∀ f, featureOf name x = some f → leafOf isString f = some k ∧ (repeated f = true → r = true) := by
  induction records with
  | nil => exact fun _ h => (nomatch h)
  | cons x records ih =>
    intro y hy f hf
    cases x with
    | none =>
      unfold inferFrom at h
      rcases List.mem_cons.mp hy with rfl | hy
      · exact nomatch hf
      · exact ih h y hy f hf
    | some fs =>
      unfold inferFrom at h
      cases hfe : (fs.find? (fun p => p.1 == name)).map (·.2) with
      | none =>
        rw [hfe] at h
        rcases List.mem_cons.mp hy with rfl | hy
        · rw [featureOf, hfe] at hf; exact nomatch hf
        · exact ih h y hy f hf
      | some g =>
        rw [hfe] at h
        simp only at h
        cases hl : leafOf isString g with
        | none => rw [hl] at h; exact nomatch h
        | some l =>
          rw [hl] at h
          simp only at h
          obtain ⟨r', h1, h2, h3⟩ := inferFrom_known isString name records l _ _ h
          simp only [Option.some.injEq, Prod.mk.injEq] at h1
          obtain ⟨rfl, rfl⟩ := h1
          rcases List.mem_cons.mp hy with rfl | hy
          · rw [featureOf, hfe, Option.some.injEq] at hf
            subst hf
            exact ⟨hl, h2⟩
          · exact h3 y hy f hf

/-- A feature without values. -/
def Empty : Feature → Prop
  | .bytes l => l = []
  | .floats l => l = []
  | .ints l => l = []
  | .unset => True

/-- **A schema that was inferred from all records fits them**, if no feature is without values: every column is read right. -/
theorem C118_inferred_partial (d : Decoders) (isString : Bool) (name : Nat) (info : TypeInfo) (records : List Record) (hr : ∀ r ∈ records, r ≠ none)
    (hi : infer isString name none records = some (some info)) (he : ∀ r ∈ records, ∀ f, featureOf name r = some f → ¬ Empty f) :
    convertColumn d name info records = some (records.map (fun r => row d info (featureOf name r))) := by
  unfold infer at hi
  simp only at hi
  cases hx : inferFrom isString name none records with
  | none => rw [hx] at hi; exact nomatch hi
  | some o =>
    cases o with
    | none => rw [hx] at hi; exact nomatch hi
    | some p =>
      obtain ⟨k, rep⟩ := p
      rw [hx] at hi
      simp only [Option.map_some, Option.some.injEq] at hi
      subst hi
      have hall := inferFrom_unknown isString name records k rep hx
      have hplain : ∀ r ∈ records, ∀ f, featureOf name r = some f → Plain k := by
        intro r hr' f hf
        have := (hall r hr' f hf).1
        cases f <;> simp only [leafOf, Option.some.injEq] at this
        · cases isString <;> simp at this <;> subst this <;> simp [Plain]
        · subst this; simp [Plain]
        · subst this; simp [Plain]
        · exact nomatch this
      have hk : Plain k := by
        by_cases hex : ∃ r ∈ records, ∃ f, featureOf name r = some f
        · obtain ⟨r, hr', f, hf⟩ := hex
          exact hplain r hr' f hf
        · exfalso
          have : ∀ (rs : List Record), (∀ r ∈ rs, featureOf name r = none) → inferFrom isString name none rs = some none := by
            intro rs hn
            induction rs with
            | nil => rfl
            | cons x rs ih =>
              have h1 := hn x (by simp)
              have h2 := ih (fun r hr => hn r (by simp [hr]))
              cases x with
              | none => unfold inferFrom; exact h2
              | some fs =>
                unfold inferFrom
                rw [featureOf] at h1
                rw [h1]
                exact h2
          rw [this records (fun r hr' => by
            cases h : featureOf name r with
            | none => rfl
            | some f => exact absurd ⟨r, hr', f, h⟩ hex)] at hx
          exact nomatch hx
      apply C118_column_partial d name _ records hr
      · intro r hr'
        cases rep with
        | true =>
          refine ⟨hk, fun hu => ?_⟩
          exact he r hr' .unset hu trivial
        | false =>
          refine ⟨hk, fun l hl => ?_⟩
          cases hf : featureOf name r with
          | none => rw [hf] at hl; exact nomatch hl
          | some f =>
            rw [hf] at hl
            have h1 := (hall r hr' f hf).2
            have h2 := he r hr' f hf
            have hlen : ∀ m : Nat, m ≠ 0 → (decide (1 < m) = true → false = true) → m = 1 := by
              intro m h0 hm
              by_cases h : 1 < m
              · exact absurd (hm (by simp [h])) (by simp)
              · omega
            cases f with
            | unset => exact absurd trivial h2
            | bytes x =>
              have hx1 := hlen x.length (fun h0 => h2 (List.length_eq_zero_iff.mp h0)) h1
              simp only [given] at hl
              split at hl
              · simp only [Option.some.injEq] at hl; subst hl; simpa using hx1
              · split at hl
                · simp only [Option.some.injEq] at hl; subst hl; simpa using hx1
                · exact nomatch hl
            | floats x =>
              have hx1 := hlen x.length (fun h0 => h2 (List.length_eq_zero_iff.mp h0)) h1
              simp only [given] at hl
              split at hl
              · simp only [Option.some.injEq] at hl; subst hl; simpa using hx1
              · exact nomatch hl
            | ints x =>
              have hx1 := hlen x.length (fun h0 => h2 (List.length_eq_zero_iff.mp h0)) h1
              simp only [given] at hl
              split at hl
              · simp only [Option.some.injEq] at hl; subst hl; simpa using hx1
              · exact nomatch hl
      · intro r _ h
        exact nomatch h

/-! ## Rows that shift -/

/-- What a column that is no list and has no tensors has instead: the values of all records, one after the other, and a null for each missing one. -/
theorem C118_flat_violated (d : Decoders) (name : Nat) (leaf : Leaf) (records : List Record) (hp : Plain leaf) (hr : ∀ r ∈ records, r ≠ none) :
    convertColumn d name ⟨leaf, none, false⟩ records = some (records.flatMap (fun r => (given d leaf (featureOf name r)).getD [.null])) := by
  unfold convertColumn
  rw [features_eq name records hr]
  simp only
  rw [leafValues_eq d ⟨leaf, none, false⟩ (records.map (featureOf name)) (fun f => (given d leaf f).getD [.null]) (fun f _ => plain_values d ⟨leaf, none, false⟩ hp f)]
  simp only [Bool.false_eq_true, if_false]
  rw [List.map_map, List.flatMap_def]
  rfl

/-- No tensors, and strings as they are. -/
def plainD : Decoders := ⟨fun _ => none, id⟩

/-- **Violated**: three records with the integers `1`, none, and `2` and `3` are read without error as the rows `1`, `2`, `3`: the second record has a value of the third.  The schema is the one that is inferred from the first two records. -/
theorem C118_shift_violated :
    infer false 0 (some 2) [some [(0, .ints [1])], some [(0, .ints [])], some [(0, .ints [2, 3])]] = some (some ⟨.int64, none, false⟩) ∧
      readTfrecord plainD [(0, ⟨.int64, none, false⟩)] 10 [some [(0, .ints [1])], some [(0, .ints [])], some [(0, .ints [2, 3])]] =
        some [[[.int 1, .int 2, .int 3]]] := ⟨by decide, rfl⟩

/-- **Violated**: a feature without values in all records makes rows disappear even with the schema that is inferred from all records; with a second column the file cannot be read at all. -/
theorem C118_lost_violated :
    infer false 0 none [some [(0, .ints [1])], some [(0, .ints [])]] = some (some ⟨.int64, none, false⟩) ∧
      readTfrecord plainD [(0, ⟨.int64, none, false⟩)] 10 [some [(0, .ints [1])], some [(0, .ints [])]] = some [[[.int 1]]] ∧
      readTfrecord plainD [(0, ⟨.int64, none, false⟩), (1, ⟨.int64, none, false⟩)] 10
        [some [(0, .ints [1]), (1, .ints [5])], some [(0, .ints []), (1, .ints [6])]] = none := ⟨by decide, rfl, rfl⟩

/-- **Violated**: one record without features makes the read of any column of its batch fail (a panic), although the inference skips it. -/
theorem C118_features_violated (d : Decoders) (name : Nat) (info : TypeInfo) (fields : List (Nat × TypeInfo)) (records : List Record) (h : none ∈ records) :
    convertBatch d ((name, info) :: fields) records = none ∧ inferFrom false name none (none :: records) = inferFrom false name none records := by
  refine ⟨?_, rfl⟩
  have : convertColumn d name info records = none := by
    unfold convertColumn
    rw [features_none name records h]
  unfold convertBatch convertColumns
  rw [this]

/-- The bytes `[n]` are a tensor of one float with the bits `n`; the bytes `[n, n]` one of a double in `double_val`; the bytes `[a, b, c]` one of two halves, the content of which is at an odd address. -/
def someD : Decoders where
  tensor := fun
    | [n] => some ⟨some [1], .float, [], 0, [], [n], []⟩
    | [n, _] => some ⟨some [1], .double, [], 0, [], [], [n]⟩
    | [a, b, c] => some ⟨some [2], .half, [a, b, c, 0], 1, [], [], []⟩
    | _ => none
  utf8 := id

/-- **Violated**: if a list of tensors is missing in a record, the next record with tensors gets a null instead of its own. -/
theorem C118_list_missing_violated :
    readTfrecord someD [(0, ⟨.float32, some 1, true⟩)] 10 [some [], some [(0, .bytes [[7]])], some [(0, .bytes [[8], [9]])]] =
      some [[[.list [], .list [.list [.null]], .list [.list [.float 7], .list [.float 8]]]]] := rfl

/-- **Violated**: a file with a tensor of doubles has no rows. -/
theorem C118_double_rows_violated : readTfrecord someD [(0, ⟨.float64, some 1, false⟩)] 10 [some [(0, .bytes [[7, 7]])]] = some [[[]]] := rfl

/-- **Violated**: of two tensors of two halves at odd addresses one is left, made of one value of each. -/
theorem C118_unaligned_rows_violated :
    readTfrecord someD [(0, ⟨.float16, some 2, false⟩)] 10 [some [(0, .bytes [[1, 2, 3]])], some [(0, .bytes [[4, 5, 6]])]] =
      some [[[.list [.float (2 + 256 * 3), .float (5 + 256 * 6)]]]] := rfl

/-- **Violated**: the full claim, by the file with a tensor of doubles. -/
theorem C118_violated : ¬ C118_statement := by
  intro h
  obtain ⟨b, h1, h2⟩ := h someD [(0, ⟨.float64, some 1, false⟩)] 10 [some [(0, .bytes [[7, 7]])]] (by omega) (by simp) (by simp)
    (by
      intro c hc r hr
      simp only [List.mem_singleton] at hc hr
      subst hc hr
      refine ⟨by omega, fun bs hbs => ?_⟩
      have hbs' : bs = [[7, 7]] := by
        simp [featureOf] at hbs
        exact hbs.symm
      exact ⟨[7, 7], _, hbs', rfl, ⟨[1], rfl, rfl⟩, rfl, rfl⟩)
  rw [C118_double_rows_violated, Option.some.injEq] at h1
  subst h1
  have := congrArg List.length (h2 0 _ rfl)
  simp [columnOf] at this

/-- **Not empty**: two columns, a missing feature, a list, tensors and lists of tensors, in batches of two. -/
theorem C118_nonvacuous :
    readTfrecord someD [(0, ⟨.int64, none, false⟩), (1, ⟨.utf8, none, true⟩), (2, ⟨.float32, some 1, false⟩), (3, ⟨.float32, some 1, true⟩)] 2
        [some [(0, .ints [4]), (1, .bytes [[1], [2, 3]]), (3, .bytes [[7], [8]])], some [(2, .bytes [[9]]), (3, .bytes [])],
          some [(0, .ints [-5]), (1, .bytes []), (3, .bytes [[6]])]] =
      some [[[.int 4, .null], [.list [.bytes [1], .bytes [2, 3]], .list []], [.list [.null], .list [.float 9]], [.list [.list [.float 7], .list [.float 8]], .list []]],
        [[.int (-5)], [.list []], [.list [.null]], [.list [.list [.float 6]]]]] ∧
      (∀ f ∈ [some (Feature.ints [4]), none, some (.ints [-5])], Fits someD ⟨.int64, none, false⟩ f ∧ Safe someD ⟨.int64, none, false⟩ f) ∧
      (∀ f ∈ [some (Feature.bytes [[9]]), none], Fits someD ⟨.float32, some 1, false⟩ f ∧ Safe someD ⟨.float32, some 1, false⟩ f) ∧
      infer true 1 none [some [(1, .bytes [[1], [2, 3]])], none, some [(1, .bytes [[4]])]] = some (some ⟨.utf8, none, true⟩) := by
  refine ⟨rfl, ?_, ?_, by decide⟩
  · intro f hf
    refine ⟨⟨Or.inl rfl, fun l hl => ?_⟩, fun h => nomatch h⟩
    simp only [List.mem_cons, List.not_mem_nil, or_false] at hf
    rcases hf with rfl | rfl | rfl <;> simp [given] at hl <;> subst hl <;> rfl
  · intro f hf
    simp only [List.mem_cons, List.not_mem_nil, or_false] at hf
    rcases hf with rfl | rfl
    · refine ⟨⟨by omega, fun bs hbs => ?_⟩, fun _ => ⟨fun bs hbs b hb t ht => ?_, fun h => nomatch h⟩⟩
      · simp only [Option.some.injEq, Feature.bytes.injEq] at hbs
        exact ⟨[9], _, hbs.symm, rfl, ⟨[1], rfl, rfl⟩, rfl, rfl⟩
      · simp only [Option.some.injEq, Feature.bytes.injEq] at hbs
        subst hbs
        simp only [List.mem_singleton] at hb
        subst hb
        have : t = ⟨some [1], .float, [], 0, [], [9], []⟩ := by
          have := Option.some.inj ht
          exact this.symm
        subst this
        exact ⟨fun _ => Or.inl rfl, fun h => nomatch h⟩
    · exact ⟨⟨by omega, fun bs hbs => (nomatch hbs)⟩, fun _ => ⟨fun bs hbs => (nomatch hbs), fun h => (nomatch h)⟩⟩

/-- A tensor of a column that is of another type than the column, that has no shape, or whose shape has another number of values, makes the batch an error: its
values are never taken for those of the column. -/
theorem C118_mismatch_refused (d : Decoders) (name : Nat) (leaf : Leaf) (size : Nat) (inList : Bool) (records : List Record) (fs : List (Nat × Feature)) (values : List (List Nat))
    (b : List Nat) (t : Tensor) (hr : some fs ∈ records) (hf : fs.find? (fun p => p.1 == name) = some (name, .bytes values)) (hb : b ∈ values) (ht : d.tensor b = some t)
    (hbad : t.dims = none ∨ (∃ dims, t.dims = some dims ∧ dims.foldl (· * ·) 1 ≠ size) ∨ t.dtype.leaf ≠ some leaf) :
    convertColumn d name ⟨leaf, some size, inList⟩ records = none ∧
      ∀ schema, (name, (⟨leaf, some size, inList⟩ : TypeInfo)) ∈ schema → convertBatch d schema records = none := by
  have hv : valid ⟨leaf, some size, inList⟩ t = false := by
    unfold valid
    rcases hbad with h | ⟨dims, h, hne⟩ | h
    · rw [h]
    · rw [h]
      simp [Ne.symm hne]
    · cases t.dims <;> simp [h]
  have h1 : ∀ ts : List Tensor, t ∈ ts → tensorsValues ⟨leaf, some size, inList⟩ ts = none := by
    intro ts
    induction ts with
    | nil => exact fun h => nomatch h
    | cons t' ts ih =>
      intro hm
      unfold tensorsValues
      split
      · rename_i hvt
        rcases List.mem_cons.mp hm with rfl | hm
        · rw [hv] at hvt
          exact nomatch hvt
        · rw [ih hm]
          split
          · rename_i h
            exact nomatch h
          · rfl
      · rfl
  have h2 : ∀ (vs : List (List Nat)), b ∈ vs → ∀ ts, decodeAll d vs = some ts → t ∈ ts := by
    intro vs
    induction vs with
    | nil => exact fun h => nomatch h
    | cons v vs ih =>
      intro hm ts hts
      unfold decodeAll at hts
      split at hts
      · rename_i a as ha has
        cases hts
        rcases List.mem_cons.mp hm with rfl | hm
        · rw [ht] at ha
          cases ha
          exact List.mem_cons_self
        · exact List.mem_cons_of_mem _ (ih hm _ has)
      · exact nomatch hts
  have h3 : featureValues d ⟨leaf, some size, inList⟩ (some (.bytes values)) = none := by
    unfold featureValues tensorFeature
    simp only
    split
    · rfl
    · rename_i ts hts
      rw [h1 ts (h2 values hb ts hts)]
      rfl
  have h4 : ∀ l : List (Option Feature), some (.bytes values) ∈ l → leafValues d ⟨leaf, some size, inList⟩ l = none := by
    intro l
    induction l with
    | nil => exact fun h => nomatch h
    | cons f l ih =>
      intro hm
      unfold leafValues
      rcases List.mem_cons.mp hm with rfl | hm
      · rw [h3]
      · rw [ih hm]
        cases featureValues d ⟨leaf, some size, inList⟩ f <;> rfl
  have h5 : ∀ l : List Record, some fs ∈ l → ∀ r, features name l = some r → some (.bytes values) ∈ r := by
    intro l
    induction l with
    | nil => exact fun h => nomatch h
    | cons f l ih =>
      intro hm r hfr
      cases f with
      | none => exact nomatch hfr
      | some g =>
        unfold features at hfr
        cases hl : features name l with
        | none =>
          rw [hl] at hfr
          exact nomatch hfr
        | some r' =>
          rw [hl] at hfr
          cases hfr
          rcases List.mem_cons.mp hm with h | hm
          · cases h
            rw [hf]
            exact List.mem_cons_self
          · exact List.mem_cons_of_mem _ (ih hm _ hl)
  have h6 : convertColumn d name ⟨leaf, some size, inList⟩ records = none := by
    unfold convertColumn
    cases hl : features name records with
    | none => rfl
    | some r => simp only [h4 r (h5 records hr r hl)]
  refine ⟨h6, fun schema hs => ?_⟩
  have h7 : ∀ l : List (Nat × TypeInfo), (name, (⟨leaf, some size, inList⟩ : TypeInfo)) ∈ l → convertColumns d records l = none := by
    intro l
    induction l with
    | nil => exact fun h => nomatch h
    | cons f l ih =>
      intro hm
      obtain ⟨n', i'⟩ := f
      unfold convertColumns
      rcases List.mem_cons.mp hm with h | hm
      · cases h
        rw [h6]
      · rw [ih hm]
        cases convertColumn d n' i' records <;> rfl
  unfold convertBatch
  rw [h7 schema hs]

end Verif.Tfrecord
