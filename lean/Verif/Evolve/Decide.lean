import Verif.Evolve.Spec
/-!
# The conditions of the specification can be decided

Only used for examples.
-/
namespace Verif.Evolve

instance decOptAll {α : Type} {p : α → Prop} [DecidablePred p] : ∀ o : Option α, Decidable (∀ a, o = some a → p a)
  | none => isTrue (fun _ h => nomatch h)
  | some a => decidable_of_iff (p a) ⟨fun h _ e => Option.some.inj e ▸ h, fun h => h a rfl⟩

instance decOptEx {α : Type} {p : α → Prop} [DecidablePred p] : ∀ o : Option α, Decidable (∃ a, o = some a ∧ p a)
  | none => isFalse (fun ⟨_, h, _⟩ => nomatch h)
  | some a => decidable_of_iff (p a) ⟨fun h => ⟨a, rfl, h⟩, fun ⟨_, e, h⟩ => Option.some.inj e ▸ h⟩

instance decOne {α : Type} : ∀ k : Tr α, Decidable (∃ d l, k = .cons d l .nil)
  | .nil => isFalse (fun ⟨_, _, h⟩ => nomatch h)
  | .cons a k .nil => isTrue ⟨a, k, rfl⟩
  | .cons _ _ (.cons _ _ _) => isFalse (fun ⟨_, _, h⟩ => by injection h with _ _ h; cases h)

instance decNe {α : Type} : ∀ k : Tr α, Decidable (k ≠ .nil)
  | .nil => isFalse (fun h => h rfl)
  | .cons _ _ _ => isTrue (fun h => nomatch h)

instance decNil {α : Type} : ∀ k : Tr α, Decidable (k = .nil)
  | .nil => isTrue rfl
  | .cons _ _ _ => isFalse (fun h => nomatch h)

instance decColsOk (n : Nat) : ∀ (items : Bool) (b : Tr Col), Decidable (ColsOk n items b)
  | _, .nil => isTrue trivial
  | items, .cons c k r =>
    have := decColsOk n (items || decide (c.kind = .list)) k
    have := decColsOk n items r
    have : Decidable (match c.kind with
      | .leaf _ => k = .nil ∧ c.vals.length = n
      | .list => (∃ d l, k = .cons d l .nil) ∧ c.vals.length = n
      | .struct => k ≠ .nil ∧ c.vals = []) :=
      match c.kind with
      | .leaf _ => inferInstanceAs (Decidable (_ ∧ _))
      | .list => inferInstanceAs (Decidable (_ ∧ _))
      | .struct => inferInstanceAs (Decidable (_ ∧ _))
    inferInstanceAs (Decidable (_ ∧ _ ∧ _ ∧ _))

instance (b : Data) : Decidable (DataOk b) := inferInstanceAs (Decidable (_ ∧ _))

instance decDistinct {α : Type} (name : α → Nat) : ∀ b : Tr α, Decidable (Distinct name b)
  | .nil => isTrue trivial
  | .cons _ k r =>
    have := decDistinct name k
    have := decDistinct name r
    inferInstanceAs (Decidable (_ ∧ _ ∧ _))

instance decShape : ∀ b : Tr Attr, Decidable (ShapeOk b)
  | .nil => isTrue trivial
  | .cons a k r =>
    have := decShape k
    have := decShape r
    have : Decidable (match a.kind with
      | .leaf _ => k = .nil
      | .list => ∃ b l, k = .cons b l .nil
      | .struct => k ≠ .nil) :=
      match a.kind with
      | .leaf _ => decNil k
      | .list => decOne k
      | .struct => decNe k
    inferInstanceAs (Decidable (_ ∧ _ ∧ _))

instance decComplete : ∀ (s : Tr Attr) (b : Tr Col), Decidable (Complete s b)
  | .nil, _ => isTrue trivial
  | .cons a k r, b =>
    have : DecidablePred (fun t : Col × Tr Col => Complete k t.2) := fun t => decComplete k t.2
    have := decComplete r b
    inferInstanceAs (Decidable ((∃ t, colByName a.name b = some t ∧ Complete k t.2) ∧ Complete r b))

instance (d : Ds) (b : Data) : Decidable (AppendFine d b) :=
  inferInstanceAs (Decidable (∀ t ∈ d.schema.roots, (∃ c, colByName t.1.name b.cols = some c ∧ Complete t.2 c.2) ∨
    (colByName t.1.name b.cols = none ∧ d.legacy = false ∧ ∀ a ∈ t.1 :: (if t.1.kind = .struct then strict t.2 else []), a.nullable = true)))

instance decWhole : ∀ (q : List Nat) (s : Tr Attr), Decidable (wholeLists q s)
  | [], _ => isTrue trivial
  | [_], _ => isTrue trivial
  | x :: y :: p, s =>
    have : DecidablePred (fun t : Attr × Tr Attr => t.1.kind ≠ .list ∧ wholeLists (y :: p) t.2) := fun t =>
      have := decWhole (y :: p) t.2
      inferInstanceAs (Decidable (_ ∧ _))
    decOptAll (byName x s)

instance (s : Tr Attr) (paths : List (List Nat)) : Decidable (ReadFine s paths) :=
  inferInstanceAs (Decidable (∀ q ∈ paths, (fieldAt q s).isSome ∧ wholeLists q s))

instance (d : Ds) (paths : List (List Nat)) : Decidable (StoredFine d paths) :=
  inferInstanceAs (Decidable (∀ fr ∈ d.frags, fr.del = [] ∨ ∀ q ∈ paths, ∀ t ∈ d.schema.roots, q.head? = some t.1.name → t.1.id ∈ fr.files.flatMap File.ids))

instance (cs : Casts) (d : Ds) (alts : List Alt) : Decidable (NoClash cs d alts) :=
  inferInstanceAs (Decidable (∀ cols, specAlter cs alts [] (d.schema.map (fun (a : Attr) => a.col [])) = some cols → ∀ t ∈ cols.roots, Distinct Col.name t.2))

instance (cs : Casts) (d : Ds) (alts : List Alt) : Decidable (AlterFine cs d alts) :=
  inferInstanceAs (Decidable (_ ∧ (∀ al ∈ alts, al.cast.isSome → al.path.length = 1) ∧ _))

instance decWfOp (op : Op) : Decidable (WfOp op) := by
  cases op <;> unfold WfOp <;> infer_instance

instance decFine (cs : Casts) (d : Ds) (op : Op) : Decidable (Fine cs d op) := by
  cases op <;> unfold Fine <;> infer_instance

instance decFineIf (cs : Casts) (d : Ds) (op : Op) : Decidable (FineIf cs d op) := by
  cases op <;> unfold FineIf <;> infer_instance

instance decFineRun (cs : Casts) : ∀ (s : State) (ops : List Op), Decidable (FineRun cs s ops)
  | _, [] => isTrue trivial
  | s, op :: ops =>
    match h : step cs s op with
    | none =>
      have := decFineRun cs s ops
      decidable_of_iff (FineRun cs s ops) (by rw [FineRun, h])
    | some s' =>
      have := decFineRun cs s' ops
      decidable_of_iff (Fine cs s.cur op ∧ FineRun cs s' ops) (by rw [FineRun, h])

instance decNullsOk : ∀ b : Tr Col, Decidable (NullsOk b)
  | .nil => isTrue trivial
  | .cons c k r =>
    have := decNullsOk k
    have := decNullsOk r
    inferInstanceAs (Decidable (_ ∧ (_ → _) ∧ _))

instance decFits : ∀ (items : Bool) (t b : Tr Col), Decidable (Fits items t b)
  | _, _, .nil => isTrue (by unfold Fits; trivial)
  | items, t, .cons c k r =>
    have : DecidablePred (fun e : Col × Tr Col => e.1.kind = c.kind ∧ (items = false → nullOk e.1.nullable c.vals = true) ∧
      Fits (items || decide (c.kind = .list)) e.2 k) := fun e =>
      have := decFits (items || decide (c.kind = .list)) e.2 k
      inferInstanceAs (Decidable (_ ∧ (_ → _) ∧ _))
    have := decFits items t r
    have : Decidable (∃ e, colByName c.name t = some e ∧ e.1.kind = c.kind ∧ (items = false → nullOk e.1.nullable c.vals = true) ∧
      Fits (items || decide (c.kind = .list)) e.2 k) := decOptEx (colByName c.name t)
    decidable_of_iff ((∃ e, colByName c.name t = some e ∧ e.1.kind = c.kind ∧ (items = false → nullOk e.1.nullable c.vals = true) ∧
      Fits (items || decide (c.kind = .list)) e.2 k) ∧ Fits items t r) (by rw [Fits])

instance decMissingOk : ∀ (t b : Tr Col), Decidable (MissingOk t b)
  | .nil, _ => isTrue trivial
  | .cons c k r, b =>
    have : DecidablePred (fun e : Col × Tr Col => MissingOk k e.2) := fun e => decMissingOk k e.2
    have := decMissingOk r b
    inferInstanceAs (Decidable (((∃ e, colByName c.name b = some e ∧ MissingOk k e.2) ∨ (colByName c.name b = none ∧ c.nullable = true)) ∧ MissingOk r b))

instance (t : Tr Col) (names : List Nat) : Decidable (NewNames t names) := inferInstanceAs (Decidable (∀ x ∈ names, colByName x t = none))

instance decLeaf (cs : Casts) (x : Nat) : ∀ k : Kind, Decidable (∃ t0, k = .leaf t0 ∧ cs.allowed t0 x = true)
  | .leaf t => decidable_of_iff (cs.allowed t x = true) ⟨fun h => ⟨t, rfl, h⟩, fun ⟨_, e, h⟩ => by injection e with e; exact e ▸ h⟩
  | .struct => isFalse (fun ⟨_, h, _⟩ => nomatch h)
  | .list => isFalse (fun ⟨_, h, _⟩ => nomatch h)

instance decSensible (cs : Casts) (past : Nat) (t : Data) (op : Op) : Decidable (Sensible cs past t op) := by
  cases op <;> unfold Sensible <;> infer_instance

end Verif.Evolve
