import Verif.Evolve.Props
/-!
# Where the code departs from C81, C82, C83, and examples

All columns are of primitive type 0 unless said otherwise; the casts change nothing.
-/
namespace Verif.Evolve

/-- Casts that keep every cell. -/
def same : Casts := ⟨fun _ _ => true, fun _ _ c => some c⟩

theorem same_strict : same.strict := by
  intro _ _ x h
  cases h

/-- Put a nullable primitive column before others. -/
def num (x : Nat) (vals : List Int) (r : Tr Col) : Tr Col := .cons ⟨x, .leaf 0, true, vals.map some⟩ .nil r

/-- Put a nullable struct before others. -/
def rec (x : Nat) (k r : Tr Col) : Tr Col := .cons ⟨x, .struct, true, []⟩ k r

/-- Put a nullable list of structs before others. -/
def lst (x item : Nat) (vals : List Int) (k r : Tr Col) : Tr Col := .cons ⟨x, .list, true, vals.map some⟩ (rec item k .nil) r

/-- The history is accepted in full, and the table is not what it should be. -/
def Wrong (ops : List Op) : Prop :=
  (∀ op ∈ ops, WfOp op) ∧ (run same State.init ops).2.length = ops.length ∧
    (specRun same [] ⟨0, .nil⟩ (run same State.init ops).2).map Prod.snd ≠ (run same State.init ops).1.cur.scan

instance (ops : List Op) : Decidable (Wrong ops) := inferInstanceAs (Decidable (_ ∧ _ ∧ _))

theorem wrong_not {ops : List Op} (h : Wrong ops) : ¬ C81_history_reads_back_statement := by
  intro hs
  obtain ⟨past, t, h1, h2, _⟩ := hs same ops same_strict h.1
  apply h.2.2
  rw [h1, h2]
  rfl

/-- Dropping a field inside a list drops the list: `drop_columns(["l.item.a"])` leaves nothing of `l` = list<struct<a, b>>. -/
theorem C81_drop_in_list_violated : Wrong [.create false ⟨1, lst 1 2 [5] (num 3 [7] (num 4 [8] .nil)) (num 9 [1] .nil)⟩ [], .drop [[1, 2, 3]]] := by
  decide +kernel

/-- Rows deleted, then a column computed from a column that is stored nowhere: `NullReader` counts the rows that are left, the new data
file is too short, and the table cannot be read any more. -/
theorem C81_compute_from_null_column_violated : Wrong [.create false ⟨3, num 1 [5, 6, 7] .nil⟩ [],
    .addNulls (.cons ⟨2, -1, .leaf 0, true⟩ .nil .nil), .delete (fun i => i == 0),
    .addUdf [[2]] (.cons ⟨3, .leaf 0, true, fun _ => some 1⟩ .nil .nil)] := by
  decide +kernel

/-- The same for a cast of the column that is stored nowhere. -/
theorem C81_cast_null_column_violated : Wrong [.create false ⟨3, num 1 [5, 6, 7] .nil⟩ [],
    .addNulls (.cons ⟨2, -1, .leaf 0, true⟩ .nil .nil), .delete (fun i => i == 0), .alter [⟨[2], none, none, some 1⟩]] := by
  decide +kernel

/-- Renaming `s.b` to `a` where there is an `s.a` is accepted; both are then read as the first. -/
theorem C81_rename_to_sibling_violated : Wrong [.create false ⟨1, rec 1 (num 2 [5] (num 3 [6] .nil)) .nil⟩ [], .alter [⟨[1, 3], some 2, none, none⟩]] := by
  decide +kernel

/-- Rows whose list items lack a nullable field are appended; the table cannot be read any more. -/
theorem C81_append_without_item_field_violated : Wrong [.create false ⟨1, lst 1 2 [5] (num 3 [7] (num 4 [8] .nil)) .nil⟩ [],
    .append ⟨1, lst 1 2 [6] (num 3 [7] .nil) .nil⟩ []] := by
  decide +kernel

/-- In the legacy format rows that lack a nullable column are appended; the table cannot be read any more. -/
theorem C81_legacy_append_violated : Wrong [.create true ⟨1, num 1 [5] (num 2 [6] .nil)⟩ [], .append ⟨1, num 1 [5] .nil⟩ []] := by
  decide +kernel

/-- Rows with `s.a` only are appended to a table with `s.a` and `s.b`, and `s.a` is dropped; the table cannot be read any more. -/
theorem C81_drop_stored_part_violated : Wrong [.create false ⟨1, rec 1 (num 2 [5] (num 3 [6] .nil)) .nil⟩ [],
    .append ⟨1, rec 1 (num 2 [5] .nil) .nil⟩ [], .drop [[1, 2]]] := by
  decide +kernel

/-- Rows without a nullable struct that has a field that is not nullable are appended; the table cannot be read any more. -/
theorem C81_append_without_struct_violated : Wrong [.create false ⟨1, num 9 [1] (rec 1 (.cons ⟨2, .leaf 0, false, [some 5]⟩ .nil .nil) .nil)⟩ [],
    .append ⟨1, num 9 [2] .nil⟩ []] := by
  decide +kernel

theorem C81_history_reads_back_violated : ¬ C81_history_reads_back_statement := wrong_not C81_drop_in_list_violated

/-- The history is accepted in full, and the code and good sense disagree about one more operation. -/
def Disagree (ops : List Op) (op : Op) (code : Bool) : Prop :=
  (∀ o ∈ op :: ops, WfOp o) ∧ (run same State.init ops).2.length = ops.length ∧ (step same (run same State.init ops).1 op).isSome = code ∧
    match (run same State.init ops).1.cur.scan with
    | none => False
    | some t => ¬ (Sensible same (run same State.init ops).1.past.length t op ↔ code = true)

instance (ops : List Op) (op : Op) (code : Bool) : Decidable (Disagree ops op code) := by
  unfold Disagree
  cases (run same State.init ops).1.cur.scan <;> infer_instance

theorem disagree_not {ops : List Op} {op : Op} {code : Bool} (h : Disagree ops op code) : ¬ C82_accepts_what_makes_sense_statement := by
  intro hs
  obtain ⟨h1, _, h2, h3⟩ := h
  split at h3
  · exact h3
  · rename_i t ht
    apply h3
    rw [← hs same ops op same_strict (fun o ho => h1 o (by simp [ho])) (h1 op (by simp)) t ht, h2]

/-- Two casts at once are refused if the columns are named in another order than in the schema and one of them has nulls: the columns are
checked by position. -/
theorem C82_cast_two_columns_violated :
    Disagree [.create false ⟨1, .cons ⟨1, .leaf 0, false, [some 5]⟩ .nil (.cons ⟨2, .leaf 0, true, [none]⟩ .nil .nil)⟩ []]
      (.alter [⟨[2], none, none, some 1⟩, ⟨[1], none, none, some 1⟩]) false := by
  decide +kernel

/-- A cast of a nested column panics. -/
theorem C82_cast_nested_violated : Disagree [.create false ⟨1, rec 1 (num 2 [5] .nil) .nil⟩ []] (.alter [⟨[1, 2], none, none, some 1⟩]) false := by
  decide +kernel

/-- A rename to the name of a sibling is accepted. -/
theorem C82_rename_to_sibling_violated :
    Disagree [.create false ⟨1, rec 1 (num 2 [5] (num 3 [6] .nil)) .nil⟩ []] (.alter [⟨[1, 3], some 2, none, none⟩]) true := by
  decide +kernel

/-- A column computed from `s.a` and from `s.nope`, which does not exist, is accepted. -/
theorem C82_compute_from_nothing_violated : Disagree [.create false ⟨1, rec 1 (num 2 [5] .nil) .nil⟩ []]
    (.addUdf [[1, 2], [1, 9]] (.cons ⟨3, .leaf 0, true, fun _ => some 1⟩ .nil .nil)) true := by
  decide +kernel

/-- A column computed from a column stored nowhere and one that is stored is refused after a delete: the batches differ in length. -/
theorem C82_compute_after_delete_violated : Disagree [.create false ⟨3, num 1 [5, 6, 7] .nil⟩ [],
    .addNulls (.cons ⟨2, -1, .leaf 0, true⟩ .nil .nil), .delete (fun i => i == 0)]
    (.addUdf [[1], [2]] (.cons ⟨3, .leaf 0, true, fun _ => some 1⟩ .nil .nil)) false := by
  decide +kernel

/-- Null columns cannot be added in the legacy format. -/
theorem C82_legacy_nulls_violated : Disagree [.create true ⟨1, num 1 [5] .nil⟩ []] (.addNulls (.cons ⟨2, -1, .leaf 0, true⟩ .nil .nil)) false := by
  decide +kernel

theorem C82_accepts_what_makes_sense_violated : ¬ C82_accepts_what_makes_sense_statement := disagree_not C82_cast_two_columns_violated

/-- `s.l.item.a` cannot be read, though it exists. -/
theorem C83_part_of_nested_list_violated :
    (run same State.init [.create false ⟨1, rec 1 (lst 2 3 [5] (num 4 [7] (num 5 [8] .nil)) .nil) .nil⟩ []]).1.cur.scanPaths [[1, 2, 3, 4]] = none ∧
    (run same State.init [.create false ⟨1, rec 1 (lst 2 3 [5] (num 4 [7] (num 5 [8] .nil)) .nil) .nil⟩ []]).1.cur.scan =
      some ⟨1, rec 1 (lst 2 3 [5] (num 4 [7] (num 5 [8] .nil)) .nil) .nil⟩ := by
  decide +kernel

/-- `s.nope` next to `s.a` is read without an error. -/
theorem C83_missing_path_violated :
    (run same State.init [.create false ⟨1, rec 1 (num 2 [5] .nil) .nil⟩ []]).1.cur.scanPaths [[1, 2], [1, 9]] = some ⟨1, rec 1 (num 2 [5] .nil) .nil⟩ := by
  decide +kernel

theorem C83_reads_by_path_violated : ¬ C83_reads_by_path_statement := by
  intro h
  obtain ⟨h1, h2⟩ := C83_part_of_nested_list_violated
  obtain ⟨out, h3, _⟩ := (h same [.create false ⟨1, rec 1 (lst 2 3 [5] (num 4 [7] (num 5 [8] .nil)) .nil) .nil⟩ []] [[1, 2, 3, 4]] same_strict (by decide +kernel) _ h2).1
    (by decide +kernel)
  rw [h1] at h3
  cases h3

/-! ### Examples -/

/-- A history with every kind of operation: nested columns, lists, nulls in old rows, deletes before and after columns are added, a cast, renames,
dropping part of a struct, compaction, and going back to an earlier version. -/
def story : List Op :=
  [.create false ⟨3, num 1 [10, 20, 30] (rec 2 (num 3 [1, 2, 3] (num 4 [4, 5, 6] .nil)) (lst 5 6 [7, 8, 9] (num 7 [70, 80, 90] .nil) .nil))⟩ [2],
   .append ⟨2, rec 2 (num 4 [40, 50] (num 3 [11, 12] .nil)) (num 1 [40, 50] .nil)⟩ [],
   .addNulls (.cons ⟨8, -1, .leaf 0, true⟩ .nil .nil),
   .addUdf [[2, 3], [8]] (.cons ⟨9, .leaf 0, false, fun row => (row [2, 3]).getD none⟩ .nil .nil),
   .delete (fun i => i == 1 || i == 3),
   .addUdf [[1]] (.cons ⟨10, .leaf 0, true, fun row => ((row [1]).getD none).map (· + 1)⟩ .nil .nil),
   .addStream ⟨3, num 11 [100, 300, 500] .nil⟩ [2],
   .alter [⟨[2, 3], some 12, none, none⟩, ⟨[1], some 13, none, some 1⟩],
   .drop [[2, 4], [9]],
   .compact 0 2 [1],
   .drop [[99]],
   .restore 4,
   .alter [⟨[1], some 2, none, none⟩]]

/-- Two operations of `story` are refused: dropping a column that does not exist and the rename to a name that is taken.  The version before
the restore reads back as follows. -/
theorem story_reads : (run same State.init story).1.past.length = 11 ∧ (run same State.init story).2.length = 11 ∧
    ((run same State.init story).1.past[10]?).bind Ds.scan = some ⟨3, .cons ⟨13, .leaf 1, true, [some 10, some 30, some 50]⟩ .nil
      (rec 2 (num 12 [1, 3, 12] .nil) (.cons ⟨5, .list, true, [some 7, some 9, none]⟩ (rec 6 (.cons ⟨7, .leaf 0, true, [some 70, some 90, none]⟩ .nil .nil) .nil)
        (.cons ⟨8, .leaf 0, true, [none, none, none]⟩ .nil (num 10 [11, 31, 51] (num 11 [100, 300, 500] .nil)))))⟩ := by
  decide +kernel

/-- The hypotheses of the theorems above hold of `story`. -/
theorem C81_nonvacuous : same.strict ∧ (∀ op ∈ story, WfOp op) ∧ FineRun same State.init story := ⟨same_strict, by decide +kernel, by decide +kernel⟩

/-- Operations for which C82 says yes, and ones for which it says no, after `story`. -/
theorem C82_nonvacuous : ∀ x ∈ ([(.drop [[2, 4]], true), (.drop [[99]], false), (.drop [[1], [2], [5], [8], [9]], false),
      (.addNulls (.cons ⟨1, -1, .leaf 0, true⟩ .nil .nil), false), (.addNulls (.cons ⟨77, -1, .leaf 0, true⟩ .nil .nil), true),
      (.append ⟨1, num 1 [1] .nil⟩ [], false), (.append ⟨1, num 1 [1] (num 9 [1] .nil)⟩ [], true), (.addStream ⟨4, num 50 [1, 2, 3, 4] .nil⟩ [], false),
      (.addStream ⟨5, num 50 [1, 2, 3, 4, 5] .nil⟩ [], true), (.alter [⟨[2, 3], some 44, none, none⟩], true), (.alter [⟨[1], some 2, none, none⟩], false),
      (.addUdf [[2, 3]] (.cons ⟨77, .leaf 0, false, fun row => (row [2, 4]).getD none⟩ .nil .nil), false),
      (.restore 3, true), (.restore 30, false)] : List (Op × Bool)),
    WfOp x.1 ∧ FineIf same (run same State.init story).1.cur x.1 ∧ (step same (run same State.init story).1 x.1).isSome = x.2 := by
  decide +kernel

/-- Reading `s.b`, then `s.a` and a list, after `story`. -/
theorem C83_nonvacuous : ReadFine (run same State.init story).1.cur.schema [[2, 4], [5], [2, 3]] ∧
    ((run same State.init story).1.cur.scanPaths [[2, 4], [5]]) =
      some ⟨5, rec 2 (num 4 [4, 5, 6, 40, 50] .nil) (.cons ⟨5, .list, true, [some 7, some 8, some 9, none, none]⟩
        (rec 6 (.cons ⟨7, .leaf 0, true, [some 70, some 80, some 90, none, none]⟩ .nil .nil) .nil) .nil)⟩ := by
  decide +kernel

end Verif.Evolve
