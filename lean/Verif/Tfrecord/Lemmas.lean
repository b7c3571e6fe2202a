import Verif.Tfrecord.Model
/-! Lemmas about reading TFRecord files. -/
namespace Verif.Tfrecord

/-- The pieces of a list of bytes. -/
def pieces (w : Nat) (l : List Nat) : List (List Nat) := (List.range (l.length / w)).map (fun j => (l.drop (j * w)).take w)

theorem pieces_cons (w : Nat) (hw : 0 < w) (l : List Nat) (h : w ≤ l.length) : pieces w l = l.take w :: pieces w (l.drop w) := by
  unfold pieces
  have hq : l.length / w = (l.drop w).length / w + 1 := by
    rw [List.length_drop, Nat.div_eq_sub_div hw h]
  rw [hq, List.range_succ_eq_map, List.map_cons, List.map_map]
  congr 1
  · simp
  · apply List.map_congr_left
    intro j _
    simp only [Function.comp_apply]
    rw [List.drop_drop, Nat.succ_mul, Nat.add_comm]

theorem chunksExactAux_eq (w : Nat) (hw : 0 < w) (fuel : Nat) (l : List Nat) (h : l.length ≤ fuel) : chunksExactAux w fuel l = pieces w l := by
  induction fuel generalizing l with
  | zero =>
    have : l = [] := List.length_eq_zero_iff.mp (by omega)
    subst this
    simp [chunksExactAux, pieces]
  | succ fuel ih =>
    unfold chunksExactAux
    by_cases hl : l.length < w
    · rw [if_pos (Or.inr hl)]
      unfold pieces
      rw [Nat.div_eq_of_lt hl]
      rfl
    · rw [if_neg (by omega), pieces_cons w hw l (by omega), ih _ (by rw [List.length_drop]; omega)]

theorem chunksExact_eq (w : Nat) (hw : 0 < w) (l : List Nat) : chunksExact w l = pieces w l := chunksExactAux_eq w hw _ l (Nat.le_refl _)

theorem pieces_short (w : Nat) (l : List Nat) (h : l.length < w) : pieces w l = [] := by
  unfold pieces
  rw [Nat.div_eq_of_lt h]
  rfl

theorem pieces_take (w : Nat) (hw : 0 < w) (l : List Nat) : pieces w (l.take (l.length / w * w)) = pieces w l := by
  have hle : l.length / w * w ≤ l.length := Nat.div_mul_le_self _ _
  unfold pieces
  have hlen : (l.take (l.length / w * w)).length / w = l.length / w := by
    rw [List.length_take, Nat.min_eq_left hle, Nat.mul_div_cancel _ hw]
  rw [hlen]
  apply List.map_congr_left
  intro j hj
  rw [List.mem_range] at hj
  have hjw : (j + 1) * w ≤ l.length / w * w := Nat.mul_le_mul_right _ hj
  rw [Nat.succ_mul] at hjw
  rw [List.drop_take, List.take_take, Nat.min_eq_left (by omega)]

/-- What `fromSlice` gives: the pieces after the first aligned address. -/
theorem fromSlice_eq (w addr : Nat) (hw : 0 < w) (l : List Nat) : fromSlice w addr l = (pieces w (l.drop (prefixLen w addr l.length))).map fromLe := by
  unfold fromSlice
  simp only
  have hp : prefixLen w addr l.length < w := by
    unfold prefixLen
    have := Nat.mod_lt (w - addr % w) hw
    omega
  have hple : prefixLen w addr l.length ≤ l.length := by unfold prefixLen; omega
  rw [chunksExact_eq w hw, chunksExact_eq w hw, chunksExact_eq w hw]
  have h1 : pieces w (l.take (prefixLen w addr l.length)) = [] := by
    apply pieces_short
    rw [List.length_take]
    omega
  have h3 : pieces w (l.drop (prefixLen w addr l.length + (l.length - prefixLen w addr l.length) / w * w)) = [] := by
    apply pieces_short
    rw [List.length_drop]
    have h2 : (l.length - prefixLen w addr l.length) / w * w + (l.length - prefixLen w addr l.length) % w = l.length - prefixLen w addr l.length := by
      rw [Nat.mul_comm]; exact Nat.div_add_mod _ _
    have h4 := Nat.mod_lt (l.length - prefixLen w addr l.length) hw
    omega
  rw [h1, h3, List.nil_append, List.append_nil]
  have hd : l.length - prefixLen w addr l.length = (l.drop (prefixLen w addr l.length)).length := by rw [List.length_drop]
  rw [hd, pieces_take w hw]

theorem prefixLen_aligned (w addr len : Nat) (hw : 0 < w) (h : addr % w = 0) : prefixLen w addr len = 0 := by
  unfold prefixLen
  rw [h, Nat.sub_zero, Nat.mod_self]
  exact Nat.min_zero _

theorem groupAux_flatten (size : Nat) (hs : 0 < size) (vs : List (List Cell)) (h : ∀ v ∈ vs, v.length = size) (fuel : Nat) (hf : vs.length ≤ fuel) :
    groupAux size fuel vs.flatten = vs.map Cell.list := by
  induction vs generalizing fuel with
  | nil =>
    cases fuel with
    | zero => rfl
    | succ n =>
      show groupAux size (n + 1) [] = []
      unfold groupAux
      rw [if_pos (Or.inr (by simpa using hs))]
  | cons v vs ih =>
    cases fuel with
    | zero => simp at hf
    | succ fuel =>
      have hv := h v (by simp)
      rw [List.flatten_cons]
      unfold groupAux
      rw [if_neg (by rw [List.length_append]; omega), ← hv, List.take_left, List.drop_left, hv,
        ih (fun u hu => h u (by simp [hu])) fuel (by simp only [List.length_cons] at hf; omega)]
      rfl

theorem length_le_flatten (size : Nat) (hs : 0 < size) (vs : List (List Cell)) (h : ∀ v ∈ vs, v.length = size) : vs.length ≤ vs.flatten.length := by
  induction vs with
  | nil => simp
  | cons v vs ih =>
    have := ih (fun u hu => h u (by simp [hu]))
    have hv := h v (by simp)
    rw [List.flatten_cons, List.length_append, List.length_cons]
    omega

theorem group_flatten (size : Nat) (hs : 0 < size) (vs : List (List Cell)) (h : ∀ v ∈ vs, v.length = size) : group size vs.flatten = vs.map Cell.list :=
  groupAux_flatten size hs vs h _ (length_le_flatten size hs vs h)

theorem split_flatten (vs : List (List Cell)) : split (vs.map (·.length)) vs.flatten = some (vs.map Cell.list) := by
  induction vs with
  | nil => rfl
  | cons v vs ih =>
    rw [List.map_cons, List.flatten_cons]
    unfold split
    rw [if_neg (by rw [List.length_append]; omega), List.take_left, List.drop_left, ih]
    rfl

theorem leafValues_eq (d : Decoders) (info : TypeInfo) (fs : List (Option Feature)) (g : Option Feature → List Cell)
    (h : ∀ f ∈ fs, featureValues d info f = some (g f)) : leafValues d info fs = some (fs.map g).flatten := by
  induction fs with
  | nil => rfl
  | cons f fs ih =>
    unfold leafValues
    rw [h f (by simp), ih (fun u hu => h u (by simp [hu]))]
    rfl

theorem lengths_eq (info : TypeInfo) (fs : List (Option Feature)) (g : Option Feature → Nat) (h : ∀ f ∈ fs, elements info f = some (g f)) :
    lengths info fs = some (fs.map g) := by
  induction fs with
  | nil => rfl
  | cons f fs ih =>
    unfold lengths
    rw [h f (by simp), ih (fun u hu => h u (by simp [hu]))]
    rfl

/-- The feature of a name of a record. -/
def featureOf (name : Nat) : Record → Option Feature
  | none => none
  | some fs => (fs.find? (fun p => p.1 == name)).map (·.2)

theorem features_eq (name : Nat) (records : List Record) (h : ∀ r ∈ records, r ≠ none) : features name records = some (records.map (featureOf name)) := by
  induction records with
  | nil => rfl
  | cons r rs ih =>
    cases r with
    | none => exact absurd rfl (h none (by simp))
    | some fs =>
      unfold features
      rw [ih (fun u hu => h u (by simp [hu]))]
      rfl

theorem features_none (name : Nat) (records : List Record) (h : none ∈ records) : features name records = none := by
  induction records with
  | nil => cases h
  | cons r rs ih =>
    cases r with
    | none => rfl
    | some fs =>
      unfold features
      rw [ih (by simpa using h)]
      rfl

theorem batchesAux_flatten (n : Nat) (hn : 0 < n) (fuel : Nat) (l : List Record) (h : l.length ≤ fuel) : (batchesAux n fuel l).flatten = l := by
  induction fuel generalizing l with
  | zero =>
    have : l = [] := List.length_eq_zero_iff.mp (by omega)
    subst this
    rfl
  | succ fuel ih =>
    unfold batchesAux
    split
    next he => rw [List.isEmpty_iff] at he; subst he; rfl
    next he =>
      have hl : 0 < l.length := by
        cases l with
        | nil => exact absurd rfl he
        | cons a l => simp
      rw [List.flatten_cons, ih _ (by rw [List.length_drop]; omega), List.take_append_drop]

theorem mem_batchesAux (n fuel : Nat) (l : List Record) (b : List Record) (hb : b ∈ batchesAux n fuel l) (r : Record) (hr : r ∈ b) : r ∈ l := by
  induction fuel generalizing l with
  | zero => cases hb
  | succ fuel ih =>
    unfold batchesAux at hb
    split at hb
    · cases hb
    · rcases List.mem_cons.mp hb with rfl | hb
      · exact List.mem_of_mem_take hr
      · exact List.mem_of_mem_drop (ih _ hb)

end Verif.Tfrecord
