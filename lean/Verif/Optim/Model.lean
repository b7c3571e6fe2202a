/-!
# The rules for plans (`rust/lance/src/io/exec/optimizer.rs` 22-168, `rust/lance/src/io/exec/take.rs` 178-411)

Plans are evaluated for one row of the dataset: nodes that change which rows there are (filters, sorts, limits, batches) give the row with the same columns, and `TakeExec`
adds the columns of the dataset for the row.  Columns are not nested here (nested columns are in `Verif.Nest`).  Names and values are numbers.  Panics are `none`.
-/

namespace Verif.Optim

abbrev Name := Nat

/-- The dataset: the names of its columns, in order, and the values in the row. -/
structure Data where
  names : List Name
  value : Name → Nat

/-- A physical plan.  `projection` has for each of its columns the index in its input and the name (`Column`). -/
inductive Plan where
  | source (cols : List (Name × Nat))
  | take (projection : List Name) (input : Plan)
  | coalesce (input : Plan)
  | keep (input : Plan)
  | projection (exprs : List (Nat × Name)) (input : Plan)
deriving Repr, DecidableEq

/-- `take.rs` 243-249 (`subtract_arrow_schema`): the columns that are to be read. -/
def extra (d : Data) (projection schema : List Name) : List Name := d.names.filter (fun n => projection.contains n && !schema.contains n)

/-- `take.rs` 284-337 (`calculate_output_schema`) for columns that are not nested: those of the input, then the new ones in the order of the dataset. -/
def schema (d : Data) : Plan → List Name
  | .source cols => cols.map (·.1)
  | .take p input => schema d input ++ extra d p (schema d input)
  | .coalesce input => schema d input
  | .keep input => schema d input
  | .projection exprs _ => exprs.map (·.2)

/-- The columns that a `ProjectionExec` picks, by index. -/
def pick (cols : List (Name × Nat)) : List (Nat × Name) → Option (List (Name × Nat))
  | [] => some []
  | e :: es =>
    match cols[e.1]?, pick cols es with
    | some c, some out => some ((e.2, c.2) :: out)
    | _, _ => none

/-- The columns of the row that a plan gives (`take.rs` 107-132). -/
def eval (d : Data) : Plan → Option (List (Name × Nat))
  | .source cols => some cols
  | .take p input =>
    match eval d input with
    | some cols => some (cols ++ (extra d p (schema d input)).map (fun n => (n, d.value n)))
    | none => none
  | .coalesce input => eval d input
  | .keep input => eval d input
  | .projection exprs input =>
    match eval d input with
    | some cols => pick cols exprs
    | none => none

/-- `take.rs` 364-394 (`TakeExec::with_new_children`, with `try_new` 231-282): the input itself if nothing is to be read. -/
def newTake (d : Data) (projection : List Name) (input : Plan) : Plan :=
  if extra d projection (schema d input) = [] then input else .take projection input

/-- `optimizer.rs` 26-32: only as many fields as both have. -/
def orderDiffers : List Name → List Name → Bool
  | o :: os, n :: ns => o ≠ n || orderDiffers os ns
  | _, _ => false

/-- `Column::new_with_schema` and the `unwrap` in `optimizer.rs` 39-47, for each of the old fields. -/
def remapExprs (new : List Name) : List Name → Option (List (Nat × Name))
  | [] => some []
  | n :: ns =>
    match remapExprs new ns with
    | some es => if n ∈ new then some ((new.idxOf n, n) :: es) else none
    | none => none

/-- `optimizer.rs` 50-70 (`collapse_takes`): the plan is `outer` over some node over the inner take, `inner` is the input of the inner take. -/
def collapse (d : Data) (oldSchema projection : List Name) (inner : Plan) : Option Plan :=
  let collapsed := newTake d projection inner
  if orderDiffers oldSchema (schema d collapsed) then
    match remapExprs (schema d collapsed) oldSchema with
    | some es => some (.projection es collapsed)
    | none => none
  else some collapsed

/-- `optimizer.rs` 80-103: what the rule makes of one node. -/
def step (d : Data) (p : Plan) : Option Plan :=
  match p with
  | .take b (.take _ x) => collapse d (schema d p) b x
  | .take b (.coalesce (.take _ x)) => collapse d (schema d p) b x
  | _ => some p

/-- `optimizer.rs` 73-106: `transform_down` gives the rule a node, and then the children of what came out, which get new children (`with_new_children`).  The first argument bounds
the depth; a plan that is deeper is left as it is below. -/
def optimize (d : Data) : Nat → Plan → Option Plan
  | 0, p => some p
  | fuel + 1, p =>
    match step d p with
    | none => none
    | some (.source cols) => some (.source cols)
    | some (.take b x) => (optimize d fuel x).map (newTake d b)
    | some (.coalesce x) => (optimize d fuel x).map .coalesce
    | some (.keep x) => (optimize d fuel x).map .keep
    | some (.projection es x) => (optimize d fuel x).map (.projection es)

/-- `optimizer.rs` 127-157: a projection of all columns of its input, in their order and with their names, gives way to its input (the `Column`s have the name of the output here). -/
def simplifyStep (d : Data) : Plan → Plan
  | .projection es x => if schema d x = es.map (·.2) ∧ es.map (·.1) = List.range es.length then x else .projection es x
  | p => p

/-- `optimizer.rs` 122-160: `transform_down` with the rule `SimplifyProjection`. -/
def simplify (d : Data) : Nat → Plan → Plan
  | 0, p => p
  | fuel + 1, p =>
    match simplifyStep d p with
    | .source cols => .source cols
    | .take b x => newTake d b (simplify d fuel x)
    | .coalesce x => .coalesce (simplify d fuel x)
    | .keep x => .keep (simplify d fuel x)
    | .projection es x => .projection es (simplify d fuel x)

/-- `scanner.rs` 2298-2322 (`Scanner::take`). -/
def scannerTake (d : Data) (input : Plan) (projection : List Name) : Plan :=
  if extra d projection (schema d (.coalesce input)) = [] then input else .take projection (.coalesce input)

/-- `scanner.rs` 1364-1370, 1437-1496 and 1863-1906: a filter that is answered by an index on all fragments, without a filter on the rest: the row ids (`rowid` is the column and its
value), the columns that are asked for, those of the order, the sort, and the columns that are asked for again; without the projections at the end. -/
def indexedScan (d : Data) (rowid : Name × Nat) (columns ordering : List Name) : Plan :=
  let found := scannerTake d (.source [rowid]) columns
  let ordered := scannerTake d (scannerTake d found ordering) ordering
  let sorted := if ordering = [] then ordered else .keep ordered
  scannerTake d sorted columns

end Verif.Optim
