import Verif.Zip.Model
import Verif.Mini.Spec
/-!
# Full-zip pages: what is claimed

Rows are described by their slots, as for mini-block pages.
-/
namespace Verif.Zip
open Verif.Mini

/-- The number of definition levels of all layers. -/
def allLevels (layers : List Layer) : Nat := (layers.map Layer.defLevels).sum

/-- The number of definition levels of layers that are no lists, inside and outside of lists. -/
def itemLevels : List Layer → Nat
  | [] => 0
  | l :: ls => (if l.isList then 0 else l.defLevels) + itemLevels ls

/-- No slot has a definition level that the layers do not have. -/
def LevelsOk {V : Type} (r : Rows V) : Prop := ∀ row ∈ r.rows, ∀ s ∈ row, s.dfn ≤ allLevels r.layers

/-- Where the proved part is restricted: there are few layers, if there are definition levels then some are not 0, and null and
empty lists have levels above those of all layers that are no lists (as is the case if no layer around a list has nulls). -/
structure Plain {V : Type} (r : Rows V) : Prop where
  depth : listDepth r.layers < 256
  levels : allLevels r.layers < 256
  used : r.withDefs = true → ∃ row ∈ r.rows, ∃ s ∈ row, s.dfn ≠ 0
  apart : ∀ row ∈ r.rows, ∀ s ∈ row, s.val = none → itemLevels r.layers < s.dfn

/-- A value of `bpv` bytes. -/
def FixedVal (bpv : Nat) (v : List Nat) : Prop := v.length = bpv ∧ ∀ b ∈ v, b < 256

/-- Ranges of rows in terms of the items of fixed size lists, of which each row has `n`. -/
def scaled (n : Nat) (ranges : List (Nat × Nat)) : List (Nat × Nat) := ranges.map fun r => (r.1 * n, r.2 * n)

/-- The bytes that the items and values of a page take, if each item takes at most `w` bytes beside its value. -/
def pageSize (w : Nat) (r : Rows (List Nat)) : Nat := (valsOf r.rows.flatten).flatten.length + w * r.rows.flatten.length

/-- Null items are read as empty strings: what is stored of a slot of strings. -/
def blank (s : Slot (List Nat)) : Slot (List Nat) := ⟨s.rep, s.dfn, s.val.map fun v => if s.dfn = 0 then v else []⟩

/-- What a batch of rows of strings should be given back as; levels that are absent are empty. -/
def expectedStrings (r : Rows (List Nat)) (batch : List (List (Slot (List Nat)))) : Out (List Nat) :=
  ⟨some ((repsOf r batch.flatten).getD []), some ((defsOf r batch.flatten).getD []), valsOf (batch.flatten.map blank)⟩

end Verif.Zip
