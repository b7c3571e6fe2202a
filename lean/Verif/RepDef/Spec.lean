import Verif.RepDef.Model
/-!
# Repetition and definition levels: what is claimed

What an array means is said in terms of its cells only.  Nothing here mentions levels.
-/
namespace Verif.RepDef

/-- What a cell of a column holds: nothing, a value, or a list; `valid` is put around whatever is not null (the
value of an item, the content of a struct, a list). -/
inductive Val (V : Type)
  | null
  | item (v : V)
  | list (cs : List (Val V))
  | valid (c : Val V)

/-- A cell is null where the bitmap says so; without a bitmap none is. -/
def mask {V : Type} (bits : Option (List Bool)) (vs : List (Val V)) : List (Val V) :=
  match bits with
  | none => vs.map .valid
  | some bs => List.zipWith (fun b v => if b then .valid v else .null) bs vs

/-- The parts of a list between offsets. -/
def slices {A : Type} (l : List A) : List Nat → List (List A)
  | a :: b :: rest => (l.drop a).take (b - a) :: slices l (b :: rest)
  | _ => []

/-- The first `n` groups of `dim` elements. -/
def groups {A : Type} (dim : Nat) : Nat → List A → List (List A)
  | 0, _ => []
  | n + 1, l => l.take dim :: groups dim n (l.drop dim)

/-- The cells of an array. -/
def Arr.cells {V : Type} : Arr V → List (Val V)
  | .prim vals bits => mask bits (vals.map .item)
  | .struct c bits => mask bits c.cells
  | .list offs c bits => mask bits ((slices c.cells offs).map .list)
  | .fsl dim c bits => mask bits ((groups dim (c.len / dim) c.cells).map .list)

/-- A bitmap has a bit for each cell. -/
def BitsOk (bits : Option (List Bool)) (n : Nat) : Prop := ∀ bs, bits = some bs → bs.length = n

/-- Offsets do not decrease. -/
def Rising : List Nat → Prop
  | a :: b :: rest => a ≤ b ∧ Rising (b :: rest)
  | _ => True

/-- An array of the given type, put together as Arrow requires. -/
def Arr.Ok {V : Type} : List Kind → Arr V → Prop
  | [], .prim vals bits => BitsOk bits vals.length
  | .struct :: ks, .struct c bits => c.Ok ks ∧ BitsOk bits c.len
  | .list :: ks, .list offs c bits =>
    c.Ok ks ∧ BitsOk bits (offs.length - 1) ∧ offs ≠ [] ∧ Rising offs ∧ offs.getLastD 0 ≤ c.len
  | .fsl dim :: ks, .fsl d c bits => c.Ok ks ∧ BitsOk bits (c.len / dim) ∧ d = dim ∧ 0 < dim ∧ c.len % dim = 0
  | _, _ => False

/-- Pages of arrays of a type: at least one page, at least one array in each, at least one row in each. -/
structure PagesOk {V : Type} (ks : List Kind) (pages : List (List (Arr V))) : Prop where
  some : pages ≠ []
  ok : ∀ p ∈ pages, ∀ a ∈ p, a.Ok ks
  rows : ∀ p ∈ pages, p.flatMap Arr.cells ≠ []

/-- The bitmaps of an array, the innermost first. -/
def Arr.bitmaps {V : Type} : Arr V → List (Option (List Bool))
  | .prim _ bits => [bits]
  | .struct c bits => c.bitmaps ++ [bits]
  | .list _ c bits => c.bitmaps ++ [bits]
  | .fsl _ c bits => c.bitmaps ++ [bits]

/-- Whether one of the arrays of a page has a bitmap at layer `j` (the innermost is layer 0). -/
def hasBitmap {V : Type} (page : List (Arr V)) (j : Nat) : Bool :=
  page.any fun a => ((a.bitmaps[j]?).join).isSome

/-! ### What the restrictions of the proved parts say -/

/-- What is in a cell inside of `p` structs that are not null. -/
def Val.inside {V : Type} : Nat → Val V → Option (Val V)
  | 0, c => some c
  | p + 1, .valid c => c.inside p
  | _ + 1, _ => none

/-- The list in a cell inside of `p` structs, if neither is null. -/
def Val.listAt {V : Type} (p : Nat) (c : Val V) : Option (List (Val V)) :=
  match c.inside p with
  | some (.valid (.list cs)) => some cs
  | _ => none

/-- Nothing is null from a cell down to its item. -/
def Val.clean {V : Type} : Val V → Bool
  | .null => false
  | .item _ => true
  | .list _ => true
  | .valid c => c.clean

/-- A page of lists inside of `p` structs that the proved part is about: the structs are not null, there is at
least one element in the lists, and, if no list is null or empty and the arrays have no bitmaps for the lists (which
is layer `j`), no list starts with a null element. -/
structure ListPage {V : Type} (p j : Nat) (page : List (Arr V)) : Prop where
  structs : ∀ c ∈ page.flatMap Arr.cells, (c.inside p).isSome = true
  element : ∃ c ∈ page.flatMap Arr.cells, ∃ x xs, c.listAt p = some (x :: xs)
  first : hasBitmap page j = true ∨ (∃ c ∈ page.flatMap Arr.cells, c.listAt p = none ∨ c.listAt p = some []) ∨
    ∀ c ∈ page.flatMap Arr.cells, ∀ x xs, c.listAt p = some (x :: xs) → x.clean = true

end Verif.RepDef
