/-!
# Forests

Schemas and batches are forests: a list of fields, each with a list of children
(`rust/lance-core/src/datatypes/schema.rs` 20-27, `field.rs` 120-137; Arrow's `Fields` and `StructArray`).
-/
namespace Verif.Evolve

/-- A forest in first-child, next-sibling form. -/
inductive Tr (α : Type) where
  | nil
  | cons (a : α) (kids rest : Tr α)
deriving Repr, DecidableEq

namespace Tr
variable {α β : Type}

def map (f : α → β) : Tr α → Tr β
  | nil => nil
  | cons a k r => cons (f a) (k.map f) (r.map f)

/-- The nodes, parents before their children (`fields_pre_order`, schema.rs 28-59). -/
def flat : Tr α → List α
  | nil => []
  | cons a k r => a :: (k.flat ++ r.flat)

/-- The top level, each field with its children. -/
def roots : Tr α → List (α × Tr α)
  | nil => []
  | cons a k r => (a, k) :: r.roots

def append : Tr α → Tr α → Tr α
  | nil, t => t
  | cons a k r, t => cons a k (r.append t)

/-- `fields.iter().find(..)`. -/
def find? (p : α → Bool) : Tr α → Option (α × Tr α)
  | nil => none
  | cons a k r => if p a then some (a, k) else r.find? p

/-- `fields.iter().filter(..)`: whole subtrees are kept or not. -/
def filterTop (p : α → Tr α → Bool) : Tr α → Tr α
  | nil => nil
  | cons a k r => if p a k then cons a k (r.filterTop p) else r.filterTop p

end Tr
end Verif.Evolve
