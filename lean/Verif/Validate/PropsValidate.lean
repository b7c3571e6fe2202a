import Verif.Validate.Lemmas
/-!
# C115: what `Dataset.validate` says of datasets
-/
namespace Verif.Validate

/-- What a fragment has to be, without the checks of the code: each field is in one place of one file, files are of one format and of the same length, the manifest says
that length, and the deleted rows are rows of the fragment. -/
structure ValidFrag (schema : List Int) (f : Frag) : Prop where
  hasFiles : f.files ≠ []
  nonneg : ∀ x ∈ f.files, ∀ i ∈ x.fields, 0 ≤ i
  once : (f.files.flatMap (·.fields)).Nodup
  format : (∀ x ∈ f.files, x.legacy = true) ∨ ∀ x ∈ f.files, x.legacy = false
  sorted : ∀ x ∈ f.files, x.legacy = true → x.fields.Pairwise (· < ·)
  columns : ∀ x ∈ f.files, x.legacy = false → x.fields.length = x.columns
  used : ∀ x ∈ f.files, ∃ i ∈ x.fields, i ∈ schema
  lengths : ∃ n, (∀ x ∈ f.files, x.rows = n) ∧ (f.physicalRows = none ∨ f.physicalRows = some n) ∧
    ∀ d, f.deletion = some d → (d.declared = none ∨ d.declared = some d.offsets.length) ∧ ∀ o ∈ d.offsets, o < n % 2 ^ 32

/-- What a dataset has to be. -/
structure Valid (d : Dataset) : Prop where
  ids : (d.frags.map (·.id)).Pairwise (· < ·)
  frags : ∀ f ∈ d.frags, ValidFrag d.schema f
  uuids : (d.indices.map (·.uuid)).Nodup
  disjoint : ∀ name, ((d.indices.filter (fun i => i.name == name)).flatMap (fun i => i.bitmap.getD [])).Nodup

theorem expected_eq {f : Frag} {n : Nat} (h : f.files ≠ []) (hn : ∀ x ∈ f.files, x.rows = n) : f.expected = n := by
  unfold Frag.expected
  cases hf : f.files with
  | nil => exact absurd hf h
  | cons x l =>
    rw [hf] at hn
    exact hn x (by simp)

theorem checkDeletion_none (n : Nat) (o : Option DelFile) : checkDeletion n o = none ↔
    ∀ d, o = some d → (d.declared = none ∨ d.declared = some d.offsets.length) ∧ ∀ x ∈ d.offsets, x < n % 2 ^ 32 := by
  cases o with
  | none => simp [checkDeletion]
  | some d =>
    unfold checkDeletion
    rw [firstErr_none]
    simp only [List.mem_cons, List.not_mem_nil, or_false, forall_eq_or_imp, forall_eq, require_none, List.all_eq_true, decide_eq_true_eq, Option.some.injEq,
      forall_eq']
    refine and_congr ?_ Iff.rfl
    cases d.declared with
    | none => simp
    | some k => simp [require_none]

theorem frag_validate_iff (schema : List Int) (f : Frag) : f.validate schema = none ↔ ValidFrag schema f := by
  unfold Frag.validate
  rw [firstErr_none]
  simp only [List.mem_append, List.mem_cons, List.not_mem_nil, or_false, List.mem_map]
  constructor
  · intro h
    have h1 := (scanFields_none _ _).mp (h _ (Or.inl (Or.inl (Or.inl (Or.inl (Or.inl rfl))))))
    have h2 := (checkMixed_none _).mp (h _ (Or.inl (Or.inl (Or.inl (Or.inl (Or.inr rfl))))))
    have h3 : ∀ x ∈ f.files, x.check = none := fun x hx => h _ (Or.inl (Or.inl (Or.inl (Or.inr ⟨x, hx, rfl⟩))))
    have h4 : ∀ x ∈ f.files, checkCommon schema x = none := fun x hx => h _ (Or.inl (Or.inl (Or.inr ⟨x, hx, rfl⟩)))
    have h5 : ∀ x ∈ f.files, require .fileLength (x.rows == f.expected) = none := fun x hx => h _ (Or.inl (Or.inr ⟨x, hx, rfl⟩))
    have h6 := h _ (Or.inr (Or.inl rfl))
    have h7 := (checkDeletion_none _ _).mp (h _ (Or.inr (Or.inr rfl)))
    refine ⟨h2.1, fun x hx i hi => h1.1 i (List.mem_flatMap.mpr ⟨x, hx, hi⟩), h1.2.1, h2.2, ?_, ?_, ?_, f.expected, ?_, ?_, h7⟩
    · intro x hx hl
      have := h3 x hx
      unfold DataFile.check at this
      rw [if_pos hl, require_none] at this
      exact (increasing_iff _).mp this
    · intro x hx hl
      have := h3 x hx
      unfold DataFile.check at this
      rw [if_neg (by rw [hl]; simp), require_none, beq_iff_eq] at this
      exact this
    · intro x hx
      have := h4 x hx
      unfold checkCommon at this
      rw [require_none, List.any_eq_true] at this
      obtain ⟨i, hi, hs⟩ := this
      exact ⟨i, hi, List.contains_iff_mem.mp hs⟩
    · intro x hx
      have := h5 x hx
      rw [require_none, beq_iff_eq] at this
      exact this
    · cases hp : f.physicalRows with
      | none => exact Or.inl rfl
      | some n =>
        rw [hp] at h6
        simp only [require_none, beq_iff_eq] at h6
        rw [h6]
        exact Or.inr rfl
  · intro v
    obtain ⟨n, hn, hp, hd⟩ := v.lengths
    have he := expected_eq v.hasFiles hn
    rintro o (((((rfl | rfl) | ⟨x, hx, rfl⟩) | ⟨x, hx, rfl⟩) | ⟨x, hx, rfl⟩) | rfl | rfl)
    · refine (scanFields_none _ _).mpr ⟨?_, v.once, by simp⟩
      intro i hi
      obtain ⟨x, hx, hi⟩ := List.mem_flatMap.mp hi
      exact v.nonneg x hx i hi
    · exact (checkMixed_none _).mpr ⟨v.hasFiles, v.format⟩
    · unfold DataFile.check
      cases hl : x.legacy with
      | true => rw [if_pos rfl, require_none]; exact (increasing_iff _).mpr (v.sorted x hx hl)
      | false =>
        rw [if_neg (by simp), require_none, beq_iff_eq]
        exact v.columns x hx hl
    · obtain ⟨i, hi, hs⟩ := v.used x hx
      unfold checkCommon
      rw [require_none, List.any_eq_true]
      exact ⟨i, hi, List.contains_iff_mem.mpr hs⟩
    · rw [require_none, beq_iff_eq, he, hn x hx]
    · rcases hp with hp | hp
      · rw [hp]
      · rw [hp]
        simp only [require_none, beq_iff_eq, he]
    · rw [he]
      exact (checkDeletion_none _ _).mpr hd

/-- `validate` accepts exactly the valid datasets: what it accepts has each field of a fragment in one place, files of the same length, deleted rows that exist,
distinct indices whose parts cover different fragments; and it rejects nothing else. -/
theorem C115_exact (d : Dataset) : d.validate = none ↔ Valid d := by
  unfold Dataset.validate
  rw [firstErr_none]
  simp only [List.mem_append, List.mem_cons, List.not_mem_nil, or_false, List.mem_map]
  constructor
  · intro h
    have h1 := h _ (Or.inl (Or.inl (Or.inl rfl)))
    have h2 := h _ (Or.inl (Or.inl (Or.inr rfl)))
    have h3 : ∀ f ∈ d.frags, f.validate d.schema = none := fun f hf => h _ (Or.inl (Or.inr ⟨f, hf, rfl⟩))
    have h4 := h _ (Or.inr (Or.inl rfl))
    have h5 := h _ (Or.inr (Or.inr rfl))
    rw [require_none, distinct_iff] at h1
    rw [require_none, sortedFrom_iff] at h2
    rw [require_none, distinct_iff] at h4
    rw [require_none] at h5
    refine ⟨?_, fun f hf => (frag_validate_iff _ _).mp (h3 f hf), h4, ?_⟩
    · exact (h2.2.and h1).imp (fun h => by obtain ⟨a, b⟩ := h; omega)
    · intro name
      by_cases hm : name ∈ d.indices.map (·.name)
      · exact (distinct_iff _).mp (List.all_eq_true.mp h5 name hm)
      · have : d.indices.filter (fun i => i.name == name) = [] := by
          rw [List.filter_eq_nil_iff]
          intro i hi hb
          exact hm (List.mem_map.mpr ⟨i, hi, by simpa using hb⟩)
        rw [this]
        exact List.nodup_nil
  · intro v
    rintro o (((rfl | rfl) | ⟨f, hf, rfl⟩) | rfl | rfl)
    · rw [require_none, distinct_iff]
      exact v.ids.imp (fun h => by omega)
    · rw [require_none, sortedFrom_iff]
      exact ⟨fun _ _ => Nat.zero_le _, v.ids.imp (fun h => by omega)⟩
    · exact (frag_validate_iff _ _).mpr (v.frags f hf)
    · rw [require_none, distinct_iff]
      exact v.uuids
    · rw [require_none]
      exact List.all_eq_true.mpr (fun name _ => (distinct_iff _).mpr (v.disjoint name))

/-! ## Histories -/

/-- A new data file as the writers make it. -/
structure NewFile (fields : List Int) (columns : Nat) (legacy : Bool) : Prop where
  nonempty : fields ≠ []
  nonneg : ∀ i ∈ fields, 0 ≤ i
  once : fields.Nodup
  sorted : legacy = true → fields.Pairwise (· < ·)
  columns : legacy = false → fields.length = columns

/-- What operations have to be given a dataset: ids of new fragments and new fields are new, formats are that of the dataset, deleted rows are rows of the fragment. -/
def OpOk (d : Dataset) : Op → Prop
  | .append f => (∀ g ∈ d.frags, g.id < f.id) ∧ f.deletion = none ∧
      ∃ x, f.files = [x] ∧ NewFile x.fields x.columns x.legacy ∧ (∀ i ∈ x.fields, i ∈ d.schema) ∧ (f.physicalRows = none ∨ f.physicalRows = some x.rows)
  | .delete id del => (del.declared = none ∨ del.declared = some del.offsets.length) ∧
      ∀ f ∈ d.frags, f.id = id → ∀ x ∈ f.files, ∀ o ∈ del.offsets, o < x.rows % 2 ^ 32
  | .addColumns fields columns legacy => NewFile fields columns legacy ∧
      ∀ f ∈ d.frags, ∀ x ∈ f.files, x.legacy = legacy ∧ ∀ i ∈ x.fields, i ∉ fields
  | .addNulls _ => True
  | .dropColumns remaining => remaining ≠ [] ∧ ∀ i ∈ remaining, i ∈ d.schema
  | .replaceColumns id fields columns legacy => NewFile fields columns legacy ∧ (∀ i ∈ fields, i ∈ d.schema) ∧
      ∀ f ∈ d.frags, f.id = id → ∀ x ∈ f.files, x.legacy = legacy

/-- The operations are possible one after the other. -/
def Possible : Dataset → List Op → Prop
  | _, [] => True
  | d, op :: ops => OpOk d op ∧ Possible (step d op) ops

/-- The full claim: whatever operations were done to a dataset, `validate` accepts it. -/
def C115_statement : Prop := ∀ (schema : List Int) (ops : List Op), Possible ⟨[], schema, []⟩ ops → (ops.foldl step ⟨[], schema, []⟩).validate = none

/-- Operations that do not replace columns of files, and do not drop all files of a fragment. -/
def Keeps (d : Dataset) : Op → Prop
  | .replaceColumns .. => False
  | .dropColumns remaining => ∀ f ∈ d.frags, ∃ x ∈ f.files, ∃ i ∈ x.fields, i ∈ remaining
  | _ => True

/-- All operations of a history are of that kind. -/
def AllKeep : Dataset → List Op → Prop
  | _, [] => True
  | d, op :: ops => Keeps d op ∧ AllKeep (step d op) ops

theorem flatMap_filter_sublist (p : DataFile → Bool) (l : List DataFile) : ((l.filter p).flatMap (·.fields)).Sublist (l.flatMap (·.fields)) := by
  induction l with
  | nil => simp
  | cons x l ih =>
    rw [List.filter_cons, List.flatMap_cons]
    split
    · rw [List.flatMap_cons]
      exact (List.Sublist.refl _).append ih
    · exact ih.trans (List.sublist_append_right _ _)

theorem step_valid (d : Dataset) (op : Op) (v : Valid d) (ho : OpOk d op) (hk : Keeps d op) : Valid (step d op) := by
  cases op with
  | append f =>
    obtain ⟨hid, hdel, x, hx, hn, hs, hp⟩ := ho
    refine ⟨?_, ?_, v.uuids, v.disjoint⟩
    · simp only [step, List.map_append, List.map_cons, List.map_nil]
      refine List.pairwise_append.mpr ⟨v.ids, by simp, ?_⟩
      intro a ha b hb
      obtain ⟨g, hg, rfl⟩ := List.mem_map.mp ha
      simp only [List.mem_singleton] at hb
      subst hb
      exact hid g hg
    · intro g hg
      rcases List.mem_append.mp hg with hg | hg
      · exact v.frags g hg
      · simp only [List.mem_singleton] at hg
        subst hg
        refine ⟨by rw [hx]; simp, ?_, ?_, ?_, ?_, ?_, ?_, x.rows, ?_, hp, ?_⟩
        · rw [hx]; intro y hy; simp only [List.mem_singleton] at hy; subst hy; exact hn.nonneg
        · rw [hx]; simpa using hn.once
        · rw [hx]
          cases hl : x.legacy with
          | true => exact Or.inl (by simp [hl])
          | false => exact Or.inr (by simp [hl])
        · rw [hx]; intro y hy; simp only [List.mem_singleton] at hy; subst hy; exact hn.sorted
        · rw [hx]; intro y hy; simp only [List.mem_singleton] at hy; subst hy; exact hn.columns
        · rw [hx]; intro y hy; simp only [List.mem_singleton] at hy; subst hy
          obtain ⟨i, l, hi⟩ := List.exists_cons_of_ne_nil hn.nonempty
          exact ⟨i, by rw [hi]; simp, hs i (by rw [hi]; simp)⟩
        · rw [hx]; simp
        · rw [hdel]; intro d hd; cases hd
  | delete id del =>
    obtain ⟨h1, h2⟩ := ho
    refine ⟨?_, ?_, v.uuids, v.disjoint⟩
    · have e : (step d (.delete id del)).frags.map (·.id) = d.frags.map (·.id) := by
        simp only [step, List.map_map]
        apply List.map_congr_left
        intro f _
        simp only [Function.comp_apply]
        split <;> rfl
      rw [e]
      exact v.ids
    · intro g hg
      obtain ⟨f, hf, rfl⟩ := List.mem_map.mp hg
      have vf := v.frags f hf
      split
      next hid =>
        obtain ⟨n, hn, hp, _⟩ := vf.lengths
        refine ⟨vf.hasFiles, vf.nonneg, vf.once, vf.format, vf.sorted, vf.columns, vf.used, n, hn, hp, ?_⟩
        intro e he
        simp only [Option.some.injEq] at he
        subst he
        refine ⟨h1, ?_⟩
        intro o hoff
        obtain ⟨x, l, hx⟩ := List.exists_cons_of_ne_nil vf.hasFiles
        have hm : x ∈ f.files := by rw [hx]; simp
        have := h2 f hf hid x hm o hoff
        rw [hn x hm] at this
        exact this
      next => exact vf
  | addColumns fields columns legacy =>
    obtain ⟨hn, hall⟩ := ho
    refine ⟨?_, ?_, v.uuids, v.disjoint⟩
    · have e : (step d (.addColumns fields columns legacy)).frags.map (·.id) = d.frags.map (·.id) := by
        simp only [step, List.map_map]
        apply List.map_congr_left
        intro f _
        rfl
      rw [e]
      exact v.ids
    · intro g hg
      obtain ⟨f, hf, rfl⟩ := List.mem_map.mp hg
      have vf := v.frags f hf
      have ha := hall f hf
      obtain ⟨n, hnl, hp, hd⟩ := vf.lengths
      have he := expected_eq vf.hasFiles hnl
      refine ⟨by simp, ?_, ?_, ?_, ?_, ?_, ?_, n, ?_, hp, hd⟩
      · intro y hy
        rcases List.mem_append.mp hy with hy | hy
        · exact vf.nonneg y hy
        · simp only [List.mem_singleton] at hy; subst hy; exact hn.nonneg
      · simp only [List.flatMap_append, List.flatMap_cons, List.flatMap_nil, List.append_nil]
        refine List.nodup_append.mpr ⟨vf.once, hn.once, ?_⟩
        intro a ha' b hb hab
        subst hab
        obtain ⟨x, hx, hi⟩ := List.mem_flatMap.mp ha'
        exact (ha x hx).2 a hi hb
      · cases hl : legacy with
        | true =>
          refine Or.inl ?_
          intro y hy
          rcases List.mem_append.mp hy with hy | hy
          · rw [(ha y hy).1, hl]
          · simp only [List.mem_singleton] at hy; subst hy; rfl
        | false =>
          refine Or.inr ?_
          intro y hy
          rcases List.mem_append.mp hy with hy | hy
          · rw [(ha y hy).1, hl]
          · simp only [List.mem_singleton] at hy; subst hy; rfl
      · intro y hy
        rcases List.mem_append.mp hy with hy | hy
        · exact vf.sorted y hy
        · simp only [List.mem_singleton] at hy; subst hy; exact hn.sorted
      · intro y hy
        rcases List.mem_append.mp hy with hy | hy
        · exact vf.columns y hy
        · simp only [List.mem_singleton] at hy; subst hy; exact hn.columns
      · intro y hy
        rcases List.mem_append.mp hy with hy | hy
        · obtain ⟨i, hi, hs⟩ := vf.used y hy
          exact ⟨i, hi, List.mem_append_left _ hs⟩
        · simp only [List.mem_singleton] at hy; subst hy
          obtain ⟨i, l, hi⟩ := List.exists_cons_of_ne_nil hn.nonempty
          exact ⟨i, by rw [hi]; simp, List.mem_append_right _ (by rw [hi]; simp)⟩
      · intro y hy
        rcases List.mem_append.mp hy with hy | hy
        · exact hnl y hy
        · simp only [List.mem_singleton] at hy; subst hy; exact he
  | addNulls fields =>
    refine ⟨v.ids, ?_, v.uuids, v.disjoint⟩
    intro f hf
    have vf := v.frags f hf
    refine ⟨vf.hasFiles, vf.nonneg, vf.once, vf.format, vf.sorted, vf.columns, ?_, vf.lengths⟩
    intro x hx
    obtain ⟨i, hi, hs⟩ := vf.used x hx
    exact ⟨i, hi, List.mem_append_left _ hs⟩
  | dropColumns remaining =>
    refine ⟨?_, ?_, v.uuids, v.disjoint⟩
    · have e : (step d (.dropColumns remaining)).frags.map (·.id) = d.frags.map (·.id) := by
        simp only [step, List.map_map]
        apply List.map_congr_left
        intro f _
        rfl
      rw [e]
      exact v.ids
    · intro g hg
      obtain ⟨f, hf, rfl⟩ := List.mem_map.mp hg
      have vf := v.frags f hf
      have sub : ∀ x ∈ f.files.filter (fun x => x.fields.any remaining.contains), x ∈ f.files := fun x hx => (List.mem_filter.mp hx).1
      obtain ⟨n, hnl, hp, hd⟩ := vf.lengths
      refine ⟨?_, fun x hx => vf.nonneg x (sub x hx), ?_, ?_, fun x hx => vf.sorted x (sub x hx), fun x hx => vf.columns x (sub x hx), ?_, n,
        fun x hx => hnl x (sub x hx), hp, hd⟩
      · obtain ⟨x, hx, i, hi, hr⟩ := hk f hf
        refine List.ne_nil_of_mem (List.mem_filter.mpr ⟨hx, ?_⟩)
        exact List.any_eq_true.mpr ⟨i, hi, List.contains_iff_mem.mpr hr⟩
      · exact vf.once.sublist (flatMap_filter_sublist _ f.files)
      · rcases vf.format with h | h
        · exact Or.inl (fun x hx => h x (sub x hx))
        · exact Or.inr (fun x hx => h x (sub x hx))
      · intro x hx
        obtain ⟨i, hi, hs⟩ := List.any_eq_true.mp (List.mem_filter.mp hx).2
        exact ⟨i, hi, List.contains_iff_mem.mp hs⟩
  | replaceColumns id fields columns legacy => exact absurd hk (by simp [Keeps])

/-- What holds of the claim: after any history of appends, deletes, added columns and dropped columns, `validate` accepts the dataset, if no columns of files were
replaced and no fragment was left without files. -/
theorem C115_history_partial (schema : List Int) (ops : List Op) (h : Possible ⟨[], schema, []⟩ ops) (hk : AllKeep ⟨[], schema, []⟩ ops) :
    (ops.foldl step ⟨[], schema, []⟩).validate = none := by
  rw [C115_exact]
  have v0 : Valid ⟨[], schema, []⟩ := ⟨List.Pairwise.nil, by simp, by simp, by simp⟩
  generalize (⟨[], schema, []⟩ : Dataset) = d at *
  induction ops generalizing d with
  | nil => exact v0
  | cons op ops ih => exact ih (step d op) h.2 hk.2 (step_valid d op v0 h.1 hk.1)

/-- For all datasets and whatever the file format: after `merge_insert` replaced columns of a file, `validate` reports a corrupt dataset. -/
theorem C115_replaced_violated (d : Dataset) (id : Nat) (fields : List Int) (columns : Nat) (legacy : Bool) (f : Frag) (hf : f ∈ d.frags) (hid : f.id = id)
    (x : DataFile) (hx : x ∈ f.files) (i : Int) (hi : i ∈ x.fields) (hr : i ∈ fields) : (step d (.replaceColumns id fields columns legacy)).validate ≠ none := by
  intro h
  have v := (C115_exact _).mp h
  have hm : { f with files := f.files.map (tombstone fields) ++ [⟨fields, columns, legacy, f.expected⟩] } ∈ (step d (.replaceColumns id fields columns legacy)).frags := by
    refine List.mem_map.mpr ⟨f, hf, ?_⟩
    rw [if_pos hid]
  have := (v.frags _ hm).nonneg (tombstone fields x) (List.mem_append_left _ (List.mem_map.mpr ⟨x, hx, rfl⟩)) (-2)
    (List.mem_map.mpr ⟨i, hi, by rw [if_pos (List.contains_iff_mem.mpr hr)]⟩)
  omega

/-- A dataset of format 2.0 with three columns of which `merge_insert` wrote the first two: the error is that the field id -2 is not in increasing order. -/
theorem C115_violated : ¬ C115_statement := by
  intro h
  have := h [0, 1, 2] [.append ⟨0, [⟨[0, 1, 2], 3, false, 10⟩], some 10, none⟩, .replaceColumns 0 [0, 1] 2 false] (by
    refine ⟨⟨by simp, rfl, _, rfl, ⟨by simp, by decide, by decide, by simp, by simp⟩, by decide, Or.inr rfl⟩, ⟨⟨by simp, by decide, by decide, by simp, by simp⟩, by decide, ?_⟩,
      trivial⟩
    intro f hf _ x hx
    simp only [step, List.nil_append, List.mem_singleton] at hf
    subst hf
    simp only [List.mem_singleton] at hx
    subst hx
    rfl)
  revert this
  decide

/-- The error of the dataset in `C115_violated`. -/
theorem C115_replaced_error_violated : (step ⟨[⟨0, [⟨[0, 1, 2], 3, false, 10⟩], some 10, none⟩], [0, 1, 2], []⟩ (.replaceColumns 0 [0, 1] 2 false)).validate =
    some (.notIncreasing (-2)) := by decide

/-- All-null columns were added and then all other columns were dropped: the fragments have no files, and `validate` panics. -/
theorem C115_only_nulls_violated : ∃ ops, Possible ⟨[], [0], []⟩ ops ∧ (∀ op ∈ ops, match op with | .replaceColumns .. => False | _ => True) ∧
    (ops.foldl step ⟨[], [0], []⟩).validate = some .panic := by
  refine ⟨[.append ⟨0, [⟨[0], 1, false, 10⟩], some 10, none⟩, .addNulls [1], .dropColumns [1]], ?_, by simp, by decide⟩
  exact ⟨⟨by simp, rfl, _, rfl, ⟨by simp, by decide, by decide, by simp, by simp⟩, by decide, Or.inr rfl⟩, trivial, ⟨by simp, by decide⟩, trivial⟩

/-- The documentation says that the ids are in increasing order in each file and that all fields of the schema are in a file; neither is checked (of files from 2.0). -/
theorem C115_documented_violated : ∃ d : Dataset, d.validate = none ∧ (∃ f ∈ d.frags, ∃ x ∈ f.files, ¬ x.fields.Pairwise (· < ·)) ∧
    ∃ f ∈ d.frags, ∃ i ∈ d.schema, ∀ x ∈ f.files, i ∉ x.fields :=
  ⟨⟨[⟨0, [⟨[2, 1], 2, false, 10⟩], some 10, none⟩], [1, 2, 3], []⟩, by decide, ⟨_, List.mem_singleton.mpr rfl, _, List.mem_singleton.mpr rfl, by decide⟩,
    ⟨_, List.mem_singleton.mpr rfl, 3, by decide, by decide⟩⟩

/-- A history with all kinds of operations of `C115_history_partial`. -/
theorem C115_nonvacuous : ∃ ops : List Op, ops.length = 6 ∧ Possible ⟨[], [0, 1], []⟩ ops ∧ AllKeep ⟨[], [0, 1], []⟩ ops ∧
    (ops.foldl step ⟨[], [0, 1], []⟩).frags.length = 2 := by
  refine ⟨[.append ⟨0, [⟨[0, 1], 2, false, 10⟩], some 10, none⟩, .addColumns [2] 1 false, .append ⟨1, [⟨[2, 0, 1], 3, false, 5⟩], some 5, none⟩,
    .delete 1 ⟨some 2, [1, 4]⟩, .addNulls [3], .dropColumns [2, 3]], rfl, ?_, ?_, by decide⟩
  · refine ⟨⟨by simp, rfl, _, rfl, ⟨by simp, by decide, by decide, by simp, by simp⟩, by decide, Or.inr rfl⟩,
      ⟨⟨by simp, by decide, by decide, by simp, by simp⟩, by decide⟩,
      ⟨by decide, rfl, _, rfl, ⟨by simp, by decide, by decide, by simp, by simp⟩, by decide, Or.inr rfl⟩, ⟨Or.inr rfl, by decide⟩, trivial, ⟨by simp, by decide⟩, trivial⟩
  · exact ⟨trivial, trivial, trivial, trivial, trivial, (by unfold Keeps; decide), trivial⟩

end Verif.Validate
