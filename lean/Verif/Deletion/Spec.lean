/-!
# Specification: counting live rows

Independent of the code: `del i` says that physical row `i` is deleted.
-/
namespace Verif.Deletion

/-- Number of `i < n` with `p i`. -/
def countBelow (p : Nat → Bool) : Nat → Nat
  | 0 => 0
  | n + 1 => countBelow p n + (if p n then 1 else 0)

/-- Number of live rows before physical row `a`. -/
def liveBelow (del : Nat → Bool) (a : Nat) : Nat := countBelow (fun i => !del i) a

/-- Physical row `a` is the `n`-th live row (counting from 0). -/
def IsNthLive (del : Nat → Bool) (n a : Nat) : Prop := del a = false ∧ liveBelow del a = n

end Verif.Deletion
