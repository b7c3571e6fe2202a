import Verif.Evolve.LemmasScan
import Verif.Evolve.Decide
/-!
# C81, C82, C83: schema evolution

A history is any list of creates, appends, added columns (computed, from a stream, or null), altered and dropped columns, deletes,
compactions and restores.  `specRun` carries the accepted ones out on plain tables by column name.
-/
namespace Verif.Evolve

/-- C81: after any history every version reads back as the table a user expects: the one that the accepted operations give when carried
out on plain tables, and likewise every earlier version. -/
def C81_history_reads_back_statement : Prop :=
  ∀ (cs : Casts) (ops : List Op), cs.strict → (∀ op ∈ ops, WfOp op) →
    ∃ past t, specRun cs [] ⟨0, .nil⟩ (run cs State.init ops).2 = some (past, t) ∧ (run cs State.init ops).1.cur.scan = some t ∧
      (run cs State.init ops).1.past.map Ds.scan = past.map some

/-- C81, for histories whose accepted operations are fine where they are carried out (`Fine`).  Missing: appends that lack a part of a
column, or a column with a part that is not nullable, or anything in the legacy format; functions and casts that read columns a fragment
with deleted rows does not store; reading or dropping parts of lists; casts of nested columns; renaming below the top level to the name of
a sibling.  Each of these is a violation below. -/
theorem C81_history_reads_back_partial (cs : Casts) (ops : List Op) (hcs : cs.strict) (hw : ∀ op ∈ ops, WfOp op) (hf : FineRun cs State.init ops) :
    ∃ past t, specRun cs [] ⟨0, .nil⟩ (run cs State.init ops).2 = some (past, t) ∧ (run cs State.init ops).1.cur.scan = some t ∧
      (run cs State.init ops).1.past.map Ds.scan = past.map some := by
  obtain ⟨h1, h2, h3⟩ := run_ok hcs (s := State.init) init_inv (fun _ h => nomatch h) hw hf
  refine ⟨_, _, h3, scan_ok h1, ?_⟩
  rw [List.map_map]
  exact List.map_congr_left (fun e he => scan_ok (h2 e he))

/-- C81: every version, the earlier ones too, reads back as well-formed data: each column has a cell for each row, no null where nulls are
not allowed, no two columns of one name side by side. -/
theorem C81_reads_well_formed_partial (cs : Casts) (ops : List Op) (hcs : cs.strict) (hw : ∀ op ∈ ops, WfOp op) (hf : FineRun cs State.init ops) :
    ∀ d ∈ (run cs State.init ops).1.cur :: (run cs State.init ops).1.past,
      ∃ t, d.scan = some t ∧ ColsOk t.n false t.cols ∧ Distinct Col.name t.cols := by
  obtain ⟨h1, h2, _⟩ := run_ok hcs (s := State.init) init_inv (fun _ h => nomatch h) hw hf
  intro d hd
  have hi : Inv d := by
    rcases List.mem_cons.1 hd with rfl | hd
    · exact h1
    · exact h2 d hd
  exact ⟨_, scan_ok hi, table_colsOk hi, table_distinct hi⟩

/-- C82: on every version that a history reaches, an operation is accepted exactly if it makes sense for the table that is read. -/
def C82_accepts_what_makes_sense_statement : Prop :=
  ∀ (cs : Casts) (ops : List Op) (op : Op), cs.strict → (∀ op ∈ ops, WfOp op) → WfOp op → ∀ t, (run cs State.init ops).1.cur.scan = some t →
    ((step cs (run cs State.init ops).1 op).isSome ↔ Sensible cs (run cs State.init ops).1.past.length t op)

/-- C82, for versions reached by operations that are fine and for operations in `FineIf`.  Missing: casts, null columns in the legacy
format (refused), functions that read parts of lists, paths that do not exist, or columns that a fragment with deleted rows does not
store, dropping parts of lists, and renaming below the top level to the name of a sibling. -/
theorem C82_accepts_what_makes_sense_partial (cs : Casts) (ops : List Op) (op : Op) (hcs : cs.strict) (hw : ∀ op ∈ ops, WfOp op) (hwo : WfOp op)
    (hf : FineRun cs State.init ops) (hfo : FineIf cs (run cs State.init ops).1.cur op) (t : Data) (ht : (run cs State.init ops).1.cur.scan = some t) :
    (step cs (run cs State.init ops).1 op).isSome ↔ Sensible cs (run cs State.init ops).1.past.length t op := by
  obtain ⟨h1, h2, _⟩ := run_ok hcs (s := State.init) init_inv (fun _ h => nomatch h) hw hf
  obtain ⟨l1, _⟩ := run_live (cs := cs) (s := State.init) (ops := ops) (fun _ h => nomatch h) (fun _ h => nomatch h)
  rw [scan_ok h1] at ht
  cases ht
  unfold step
  rw [Option.isSome_map]
  exact stepDs_some h1 l1 hwo hfo

/-- C83: reading columns by path gives exactly the columns on the way to the paths and below them, as in the whole table; a path that
does not exist is an error. -/
def C83_reads_by_path_statement : Prop :=
  ∀ (cs : Casts) (ops : List Op) (paths : List (List Nat)), cs.strict → (∀ op ∈ ops, WfOp op) → ∀ t, (run cs State.init ops).1.cur.scan = some t →
    ((∀ q ∈ paths, (colAt q t.cols).isSome) → ∃ out, (run cs State.init ops).1.cur.scanPaths paths = some out ∧ out.n = t.n ∧
      Distinct Col.name out.cols ∧ ∀ q, colAt q out.cols = if Asked paths q then colAt q t.cols else none) ∧
    ((∃ q ∈ paths, colAt q t.cols = none) → (run cs State.init ops).1.cur.scanPaths paths = none)

/-- C83, for versions reached by operations that are fine, when no list lies on the way to the last name of a path, and for paths whose
first name does not exist. -/
theorem C83_reads_by_path_partial (cs : Casts) (ops : List Op) (paths : List (List Nat)) (hcs : cs.strict) (hw : ∀ op ∈ ops, WfOp op)
    (hf : FineRun cs State.init ops) (t : Data) (ht : (run cs State.init ops).1.cur.scan = some t) :
    ((∀ q ∈ paths, (colAt q t.cols).isSome ∧ wholeLists q (run cs State.init ops).1.cur.schema) →
      ∃ out, (run cs State.init ops).1.cur.scanPaths paths = some out ∧ out.n = t.n ∧
        Distinct Col.name out.cols ∧ ∀ q, colAt q out.cols = if Asked paths q then colAt q t.cols else none) ∧
    ((∃ x q, x :: q ∈ paths ∧ colByName x t.cols = none) → (run cs State.init ops).1.cur.scanPaths paths = none) := by
  obtain ⟨h1, _⟩ := run_ok hcs (s := State.init) init_inv (fun _ h => nomatch h) hw hf
  rw [scan_ok h1] at ht
  cases ht
  exact ⟨fun h => scanPaths_ok h1 (fun q hq => ⟨by rw [← colAt_table]; exact (h q hq).1, (h q hq).2⟩),
    fun ⟨x, q, hq, hx⟩ => scanPaths_missing hx hq⟩

end Verif.Evolve
