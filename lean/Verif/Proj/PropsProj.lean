import Verif.Proj.Lemmas

/-!
# C96: a projection reads every field from its own column

A file is written with a schema `f`.  A reader asks for some of its fields, through `from_whole_schema`, `from_field_ids` or
`from_column_names`, or through a data file's list of field ids and columns.  Each field that has a column must then be read
from the column that was written for it: `mapping v f` lists which one that is.
-/
namespace Verif.Proj

/-- `out` says which column each field of `p` with a column of its own is read from: every such field is there, in order, and
    its column is the one that the writer of `f` gave to it. -/
def ReadsOwn (v : Ver) (f p : Flds) (out : List (Nat × Nat)) : Prop :=
  out.map (·.1) = (encCols v p).map (·.1) ∧ ∀ q ∈ out, q ∈ mapping v f

/-! ## The whole schema -/

/-- The full claim: the projection of the whole schema reads every field from its own column. -/
def C96_whole_statement : Prop :=
  ∀ (v : Ver) (f : Flds) (rows : Nat), 0 < rows → (fieldIds f).Nodup → encCols v f ≠ [] →
    openCols v (fileCols v f) rows f (fromWhole v f) = .ok (mapping v f)

/-- It does if the writer and the reader understand the `packed` metadata alike (`agree`), packed structs have no children
    with children, a struct of a 2.1 file has children, all types can be decoded, and a 2.0 file has fewer than 2^32 rows. -/
theorem C96_whole_partial (v : Ver) (f : Flds) (rows : Nat) (ha : agree v f) (hs : supported v f) (hr : rowsOk v rows)
    (hc : encCols v f ≠ []) :
    fromWhole v f = List.range (fileCols v f).length ∧
    openCols v (fileCols v f) rows f (fromWhole v f) = .ok (mapping v f) := by
  have hl : (fileCols v f).length = (encCols v f).length := by simp [fileCols]
  rw [hl, mapping_eq]
  refine ⟨fromWhole_eq v f ha, ?_⟩
  rw [fromWhole_eq v f ha]
  refine openCols_ok hr hs (matches_file v f) ?_ List.nodup_range ?_ hc
  · intro e
    rw [e] at hc
    exact hc rfl
  · intro i hi
    rw [hl]
    exact List.mem_range.1 hi

/-- The claim fails: a struct packed by the key `lance-encoding:packed` (2.0) is projected as if it were not packed, and one
    with `packed` = `True` (2.0) is projected as if it were; a packed struct inside which there is another struct gets too
    many columns; so does a struct without fields (2.1); `LargeUtf8` columns (2.1) cannot be decoded; and neither can a 2.0
    file of 2^32 rows. -/
theorem C96_whole_violated : ¬ C96_whole_statement ∧
    openCols .v20 (fileCols .v20 (.struct 0 .absent true (.leaf 1 .prim .nil) (.leaf 2 .prim .nil))) 1
      (.struct 0 .absent true (.leaf 1 .prim .nil) (.leaf 2 .prim .nil))
      (fromWhole .v20 (.struct 0 .absent true (.leaf 1 .prim .nil) (.leaf 2 .prim .nil))) = .error .error ∧
    openCols .v20 (fileCols .v20 (.struct 0 .cased false (.leaf 1 .prim .nil) (.leaf 2 .prim .nil))) 1
      (.struct 0 .cased false (.leaf 1 .prim .nil) (.leaf 2 .prim .nil))
      (fromWhole .v20 (.struct 0 .cased false (.leaf 1 .prim .nil) (.leaf 2 .prim .nil))) = .error .error ∧
    (∀ v, openCols v (fileCols v (.struct 0 .exact false (.struct 1 .absent false (.leaf 2 .prim .nil) .nil) .nil)) 1
      (.struct 0 .exact false (.struct 1 .absent false (.leaf 2 .prim .nil) .nil) .nil)
      (fromWhole v (.struct 0 .exact false (.struct 1 .absent false (.leaf 2 .prim .nil) .nil) .nil)) = .error .error) ∧
    openCols .v21 (fileCols .v21 (.struct 0 .absent false .nil (.leaf 1 .prim .nil))) 1
      (.struct 0 .absent false .nil (.leaf 1 .prim .nil))
      (fromWhole .v21 (.struct 0 .absent false .nil (.leaf 1 .prim .nil))) = .error .error ∧
    openCols .v21 (fileCols .v21 (.leaf 0 .largeBin .nil)) 1 (.leaf 0 .largeBin .nil)
      (fromWhole .v21 (.leaf 0 .largeBin .nil)) = .error .panic ∧
    (∀ rows, 2 ^ 32 ≤ rows → openCols .v20 (fileCols .v20 (.leaf 0 .prim .nil)) rows (.leaf 0 .prim .nil)
      (fromWhole .v20 (.leaf 0 .prim .nil)) = .error .panic) := by
  refine ⟨fun h => ?_, by rfl, by rfl, fun v => by cases v <;> rfl, by rfl, by rfl, fun rows hr => ?_⟩
  · have := h .v21 (.struct 0 .absent false .nil (.leaf 1 .prim .nil)) 1 (by decide) (by decide) (by decide)
    cases this
  · have hn : rootPages rows ≠ 1 := fun e => by
      have := (rootPages_one.1 e).2
      omega
    have hv : validate (fileCols .v20 (.leaf 0 .prim .nil)) (.leaf 0 .prim .nil) (fromWhole .v20 (.leaf 0 .prim .nil)) = true := by
      decide
    unfold openCols
    rw [if_pos hv]
    simp [hn]

/-! ## Fields by their ids -/

/-- The full claim for `from_field_ids`: whatever fields are selected, each is read from its own column. -/
def C96_field_ids_statement : Prop :=
  ∀ (v : Ver) (f : Flds) (sel : List Nat) (rows : Nat), rowsOk v rows → (fieldIds f).Nodup → supported v f →
    encCols v (projectIds sel f) ≠ [] →
    ∃ out, openCols v (fileCols v f) rows (projectIds sel f) (fromIds v (mapping v f) (projectIds sel f)) = .ok out ∧
      ReadsOwn v f (projectIds sel f) out

/-- Any projection whose fields with columns are fields of the file, and whose other fields have no column in it, is read from
    the right columns; in 2.1 if it has no packed struct. -/
theorem C96_any_projection_partial (v : Ver) (f p : Flds) (rows : Nat) (hr : rowsOk v rows)
    (hn : (fieldIds f).Nodup) (hnp : ((encCols v p).map (·.1)).Nodup)
    (hcols : ∀ x ∈ encCols v p, x ∈ encCols v f) (hhid : ∀ i ∈ hidden v p, i ∉ (encCols v f).map (·.1))
    (hs : supported v p) (hu : v = .v21 → unpacked v p) (hc : encCols v p ≠ []) :
    ∃ out, openCols v (fileCols v f) rows p (fromIds v (mapping v f) p) = .ok out ∧ ReadsOwn v f p out := by
  have ho := fromIds_own (ids_nodup hn) p hcols hhid hu
  refine ⟨_, openCols_ok hr hs ho.matches ?_ (ho.nodup hnp) ?_ hc, ?_, ho.mem_mapping⟩
  · intro e
    rw [e] at hc
    exact hc rfl
  · intro i hi
    obtain ⟨x, _, hx⟩ := ho.bound i hi
    have := (List.getElem?_eq_some_iff.1 hx).1
    simpa [fileCols] using this
  · have hl := ho.matches.length
    rw [List.map_fst_zip (by simp [ids, hl])]
    rfl

/-- Every selection of fields by id is read from the right columns: in 2.0 always, in 2.1 if no struct is packed. -/
theorem C96_field_ids_partial (v : Ver) (f : Flds) (sel : List Nat) (rows : Nat) (hr : rowsOk v rows)
    (hn : (fieldIds f).Nodup) (hs : supported v f) (hu : v = .v21 → unpacked v f)
    (hc : encCols v (projectIds sel f) ≠ []) :
    ∃ out, openCols v (fileCols v f) rows (projectIds sel f) (fromIds v (mapping v f) (projectIds sel f)) = .ok out ∧
      ReadsOwn v f (projectIds sel f) out := by
  have h1 := project_cols v sel f
  refine C96_any_projection_partial v f _ rows hr hn ?_ h1.1 (fun i hi => hidden_disjoint hn (h1.2 i hi))
    (project_supported v sel f hs) (fun hv x hx => hu hv x (h1.1 x hx)) hc
  exact ids_nodup ((project_fields sel f).nodup hn)

/-- A packed struct of a 2.1 file cannot be read through the ids of a data file: it has a column, but the projection looks for
    columns of its children.  Alone, the reader panics; between other columns, the struct is given the column of the next
    field and the last field is found to have none. -/
theorem C96_field_ids_violated : ¬ C96_field_ids_statement ∧
    openCols .v21 (fileCols .v21 (.struct 0 .exact false (.leaf 1 .prim .nil) .nil)) 1
      (.struct 0 .exact false (.leaf 1 .prim .nil) .nil)
      (fromIds .v21 (mapping .v21 (.struct 0 .exact false (.leaf 1 .prim .nil) .nil))
        (.struct 0 .exact false (.leaf 1 .prim .nil) .nil)) = .error .panic ∧
    openCols .v21 (fileCols .v21 (.struct 0 .exact false (.leaf 1 .prim .nil) (.leaf 2 .prim .nil))) 1
      (.struct 0 .exact false (.leaf 1 .prim .nil) (.leaf 2 .prim .nil))
      (fromIds .v21 (mapping .v21 (.struct 0 .exact false (.leaf 1 .prim .nil) (.leaf 2 .prim .nil)))
        (.struct 0 .exact false (.leaf 1 .prim .nil) (.leaf 2 .prim .nil))) = .error .error := by
  refine ⟨fun h => ?_, by rfl, by rfl⟩
  obtain ⟨out, ho, _⟩ := h .v21 (.struct 0 .exact false (.leaf 1 .prim .nil) .nil) [0] 1 (Nat.zero_lt_one) (by decide)
    ⟨Or.inl rfl, trivial⟩ (by decide)
  have e : openCols .v21 (fileCols .v21 (.struct 0 .exact false (.leaf 1 .prim .nil) .nil)) 1
      (projectIds [0] (.struct 0 .exact false (.leaf 1 .prim .nil) .nil))
      (fromIds .v21 (mapping .v21 (.struct 0 .exact false (.leaf 1 .prim .nil) .nil))
        (projectIds [0] (.struct 0 .exact false (.leaf 1 .prim .nil) .nil))) = .error .panic := by rfl
  rw [e] at ho
  cases ho

/-! ## Fields by their names -/

/-- A schema without lists and structs. -/
def flat : Flds → Prop
  | .nil => True
  | .leaf _ _ r => flat r
  | _ => False

/-- Every field has a column: 2.0 without packed structs, or a schema without lists and structs. -/
def everyFieldHasColumn (v : Ver) (f : Flds) : Prop := v = .v20 ∧ unpacked v f ∨ flat f

theorem fieldIds_eq {v : Ver} : ∀ f : Flds, everyFieldHasColumn v f → fieldIds f = (encCols v f).map (·.1) := by
  intro f h
  rcases h with ⟨rfl, h⟩ | h
  · induction f with
    | nil => rfl
    | leaf id t r ih =>
      have := ih fun x hx => h x (by simp [encCols, hx])
      simp only [fieldIds] at this
      simp [fieldIds, preOrder, encCols, this]
    | list id c r ih1 ih2 =>
      have h1 := ih1 fun x hx => h x (by simp [encCols, hx])
      have h2 := ih2 fun x hx => h x (by simp [encCols, hx])
      simp only [fieldIds] at h1 h2
      simp [fieldIds, preOrder, encCols, h1, h2]
    | struct id pv nk c r ih1 ih2 =>
      have hp : packedEnc .v20 pv nk = false := by
        cases hq : packedEnc .v20 pv nk with
        | false => rfl
        | true => exact absurd rfl (h (id, .packed) (by simp [encCols, hq]))
      have h1 := ih1 fun x hx => h x (by simp [encCols, hp, hx])
      have h2 := ih2 fun x hx => h x (by simp [encCols, hp, hx])
      simp only [fieldIds] at h1 h2
      simp [fieldIds, preOrder, encCols, hp, h1, h2]
  · induction f with
    | nil => rfl
    | leaf id t r ih =>
      have := ih h
      simp only [fieldIds] at this
      simp [fieldIds, preOrder, encCols, this]
    | list _ _ _ => exact h.elim
    | struct _ _ _ _ _ => exact h.elim

theorem names_own {v : Ver} {f : Flds} (hn : (ids (encCols v f)).Nodup) :
    ∀ xs : List (Nat × ColKind), (∀ x ∈ xs, x ∈ encCols v f) →
      ∃ cs, (xs.map (·.1)).mapM (fun id => lookup (mapping v f) id) = some cs ∧ Own v f xs cs
  | [], _ => ⟨[], rfl, trivial⟩
  | x :: xs, h => by
    obtain ⟨c, hc, he⟩ := lookup_mapping hn (h x List.mem_cons_self)
    obtain ⟨cs, h1, h2⟩ := names_own hn xs fun y hy => h y (List.mem_cons_of_mem _ hy)
    refine ⟨c :: cs, ?_, he, h2⟩
    rw [List.map_cons, List.mapM_cons, hc, h1]
    rfl

/-- The full claim for `from_column_names`. -/
def C96_names_statement : Prop :=
  ∀ (v : Ver) (f : Flds) (sel : List Nat) (rows : Nat), rowsOk v rows → (fieldIds f).Nodup → supported v f →
    encCols v (projectIds sel f) ≠ [] →
    ∃ is out, fromNames f (projectIds sel f) = some is ∧
      openCols v (fileCols v f) rows (projectIds sel f) is = .ok out ∧ ReadsOwn v f (projectIds sel f) out

/-- Columns selected by name are the right ones if every field has a column of its own. -/
theorem C96_names_partial (v : Ver) (f p : Flds) (rows : Nat) (hr : rowsOk v rows) (hn : (fieldIds f).Nodup)
    (hnp : ((encCols v p).map (·.1)).Nodup) (hcols : ∀ x ∈ encCols v p, x ∈ encCols v f) (hs : supported v p)
    (hf : everyFieldHasColumn v f) (hp : everyFieldHasColumn v p) (hc : encCols v p ≠ []) :
    ∃ is out, fromNames f p = some is ∧ openCols v (fileCols v f) rows p is = .ok out ∧ ReadsOwn v f p out := by
  obtain ⟨cs, h1, ho⟩ := names_own (ids_nodup hn) (encCols v p) hcols
  refine ⟨cs, _, ?_, openCols_ok hr hs ho.matches ?_ (ho.nodup hnp) ?_ hc, ?_, ho.mem_mapping⟩
  · rw [fromNames, fieldIds_eq f hf, fieldIds_eq p hp]
    exact h1
  · intro e
    rw [e] at hc
    exact hc rfl
  · intro i hi
    obtain ⟨x, _, hx⟩ := ho.bound i hi
    have := (List.getElem?_eq_some_iff.1 hx).1
    simpa [fileCols] using this
  · have hl := ho.matches.length
    rw [List.map_fst_zip (by simp [ids, hl])]
    rfl

/-- Otherwise a field is silently read from the column of another field: in a 2.1 file, a field after a list (or a struct); in
    a 2.0 file, a field after a packed struct. -/
theorem C96_names_violated : ¬ C96_names_statement ∧
    (let f : Flds := .list 0 (.leaf 1 .prim .nil) (.leaf 2 .prim (.leaf 3 .prim .nil))
     fromNames f (.leaf 2 .prim .nil) = some [2] ∧
     openCols .v21 (fileCols .v21 f) 1 (.leaf 2 .prim .nil) [2] = .ok [(2, 2)] ∧ (3, 2) ∈ mapping .v21 f) ∧
    (let f : Flds := .struct 0 .exact false (.leaf 1 .prim .nil) (.leaf 2 .prim (.leaf 3 .prim .nil))
     fromNames f (.leaf 2 .prim .nil) = some [2] ∧
     openCols .v20 (fileCols .v20 f) 1 (.leaf 2 .prim .nil) [2] = .ok [(2, 2)] ∧ (3, 2) ∈ mapping .v20 f) := by
  refine ⟨fun h => ?_, ⟨by rfl, by rfl, by decide⟩, by rfl, by rfl, by decide⟩
  obtain ⟨is, out, h1, h2, h3⟩ := h .v21 (.list 0 (.leaf 1 .prim .nil) (.leaf 2 .prim (.leaf 3 .prim .nil))) [2] 1
    Nat.zero_lt_one (by decide) ⟨⟨rfl, trivial⟩, rfl, rfl, trivial⟩ (by decide)
  have e1 : fromNames (.list 0 (.leaf 1 .prim .nil) (.leaf 2 .prim (.leaf 3 .prim .nil)))
      (projectIds [2] (.list 0 (.leaf 1 .prim .nil) (.leaf 2 .prim (.leaf 3 .prim .nil)))) = some [2] := by rfl
  rw [e1] at h1
  cases h1
  have e2 : openCols .v21 (fileCols .v21 (.list 0 (.leaf 1 .prim .nil) (.leaf 2 .prim (.leaf 3 .prim .nil)))) 1
      (projectIds [2] (.list 0 (.leaf 1 .prim .nil) (.leaf 2 .prim (.leaf 3 .prim .nil)))) [2] = .ok [(2, 2)] := by rfl
  rw [e2] at h2
  cases h2
  have := h3.2 (2, 2) List.mem_cons_self
  revert this
  decide

/-! ## A file that is put into a dataset -/

/-- `create_fragment_from_file` records the right columns if every field has one and the `packed` metadata is understood
    alike. -/
theorem C96_import_partial (v : Ver) (f : Flds) (hf : everyFieldHasColumn v f) (ha : agree v f) :
    importMapping v f = mapping v f := by
  rw [importMapping, mapping_eq, fieldIds_eq f hf, fromWhole_eq v f ha]
  rfl

/-- For a nested 2.1 file it records as many columns as there are leaves beside the ids of all fields: the first leaf of a
    struct is then silently read from the column of the second, and `validate` of a data file refuses the lengths.  For a 2.0
    file with a packed struct the fields after it are read from no column. -/
theorem C96_import_violated :
    (let f : Flds := .struct 0 .absent false (.leaf 1 .prim (.leaf 2 .prim .nil)) .nil
     importMapping .v21 f = [(0, 0), (1, 1)] ∧ mapping .v21 f = [(1, 0), (2, 1)] ∧
     openCols .v21 (fileCols .v21 f) 1 (projectIds [1] f) (fromIds .v21 (importMapping .v21 f) (projectIds [1] f)) =
       .ok [(1, 1)] ∧
     (fieldIds f).length ≠ (fromWhole .v21 f).length) ∧
    (let f : Flds := .struct 0 .exact false (.leaf 1 .prim .nil) (.leaf 2 .prim .nil)
     importMapping .v20 f = [(0, 0), (1, 1)] ∧ mapping .v20 f = [(0, 0), (2, 1)] ∧
     openCols .v20 (fileCols .v20 f) 1 (projectIds [2] f) (fromIds .v20 (importMapping .v20 f) (projectIds [2] f)) =
       .error .error) :=
  ⟨⟨by rfl, by rfl, by rfl, by decide⟩, by rfl, by rfl, by rfl⟩

/-! ## A case -/

/-- A schema with a list of structs, a packed struct (2.0) and plain columns. -/
def exFile : Flds :=
  .leaf 0 .bin (.list 1 (.struct 2 .absent false (.leaf 3 .prim (.leaf 4 .bin .nil)) .nil)
    (.struct 5 .exact true (.leaf 6 .prim (.leaf 7 .prim .nil)) (.leaf 8 .dict .nil)))

theorem C96_nonvacuous :
    agree .v20 exFile ∧ supported .v20 exFile ∧ (fieldIds exFile).Nodup ∧
    mapping .v20 exFile = [(0, 0), (1, 1), (2, 2), (3, 3), (4, 4), (5, 5), (8, 6)] ∧
    openCols .v20 (fileCols .v20 exFile) 7 exFile (fromWhole .v20 exFile) = .ok (mapping .v20 exFile) ∧
    projectIds [4, 5, 8] exFile =
      .list 1 (.struct 2 .absent false (.leaf 4 .bin .nil) .nil)
        (.struct 5 .exact true (.leaf 6 .prim (.leaf 7 .prim .nil)) (.leaf 8 .dict .nil)) ∧
    openCols .v20 (fileCols .v20 exFile) 7 (projectIds [4, 5, 8] exFile)
      (fromIds .v20 (mapping .v20 exFile) (projectIds [4, 5, 8] exFile)) =
      .ok [(1, 1), (2, 2), (4, 4), (5, 5), (8, 6)] := by
  refine ⟨?_, ?_, by decide, by rfl, by rfl, by rfl, by rfl⟩
  · refine ⟨by decide, ⟨by decide, ?_, trivial⟩, by decide, ?_, trivial⟩
    · rw [if_neg (by decide)]
      exact ⟨trivial, by decide⟩
    · rw [if_pos (by decide)]
      rfl
  · exact ⟨rfl, ⟨⟨Or.inr ⟨rfl, rfl, trivial⟩, trivial⟩, Or.inl rfl, rfl, trivial⟩⟩

/-- The same for 2.1: only the leaves and the packed struct have columns. -/
theorem C96_case_21 :
    let f : Flds := .leaf 0 .bin (.list 1 (.struct 2 .absent false (.leaf 3 .prim (.leaf 4 .bin .nil)) .nil)
      (.leaf 5 .prim .nil))
    mapping .v21 f = [(0, 0), (3, 1), (4, 2), (5, 3)] ∧ unpacked .v21 f ∧ supported .v21 f ∧
    openCols .v21 (fileCols .v21 f) (2 ^ 40) f (fromWhole .v21 f) = .ok (mapping .v21 f) ∧
    openCols .v21 (fileCols .v21 f) 7 (projectIds [4, 5] f) (fromIds .v21 (mapping .v21 f) (projectIds [4, 5] f)) =
      .ok [(4, 2), (5, 3)] := by
  refine ⟨by rfl, by unfold unpacked; decide, ⟨rfl, ⟨⟨Or.inr ⟨rfl, rfl, trivial⟩, trivial⟩, rfl, trivial⟩⟩, by rfl, by rfl⟩

/-- A 2.0 schema of which every field has a column, with a projection by name. -/
theorem C96_names_nonvacuous :
    let f : Flds := .list 0 (.leaf 1 .prim .nil) (.struct 2 .absent false (.leaf 3 .prim (.leaf 4 .bin .nil)) .nil)
    everyFieldHasColumn .v20 f ∧ everyFieldHasColumn .v20 (projectIds [4] f) ∧ agree .v20 f ∧
    fromNames f (projectIds [4] f) = some [2, 4] ∧
    openCols .v20 (fileCols .v20 f) 7 (projectIds [4] f) [2, 4] = .ok [(2, 2), (4, 4)] ∧
    importMapping .v20 f = [(0, 0), (1, 1), (2, 2), (3, 3), (4, 4)] := by
  refine ⟨Or.inl ⟨rfl, by unfold unpacked; decide⟩, Or.inl ⟨rfl, by unfold unpacked; decide⟩, ?_, by rfl, by rfl, by rfl⟩
  refine ⟨by decide, trivial, by decide, ?_, trivial⟩
  rw [if_neg (by decide)]
  exact ⟨trivial, by decide⟩

end Verif.Proj
