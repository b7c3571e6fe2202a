import Verif.Zip.Model
import Verif.RepDef.Model
/-!
# Columns in full-zip pages: arrays to a page, rows of the page to arrays

Puts together the levels (`Verif.RepDef.Model`) and full-zip pages (`Model.lean`).
-/
namespace Verif.Zip
open Verif.RepDef (Kind Arr encode decodePages)
open Verif.Mini (Out Layer)

/-- The arrays that are flushed together as one full-zip page: the levels and the values (`do_flush`, primitive.rs 4386-4500) and the
page (`encode_full_zip`, 4189-4276) of as many rows as the arrays have. -/
def storeZip (write : Verif.Mini.RepDefs → List (List Nat) → Nat → Option Page) (ks : List Kind) (arrs : List (Arr (List Nat))) : Option Page :=
  match encode ks arrs with
  | none => none
  | some (rd, vals) => write rd vals (arrs.map Arr.len).sum

/-- The number of values of a row of fixed size lists (`items_per_row`, decoder.rs 769-776); it is asked of the type of the leaf, which is what is
inside of the structs and lists. -/
def itemsPerRow : List Kind → Nat
  | [] => 1
  | .fsl dim :: ks => dim * itemsPerRow ks
  | _ :: ks => itemsPerRow ks

/-- Each batch of levels and values is made an array (primitive.rs 3124-3150).  Batches within one page only. -/
def assemble (ks : List Kind) (layers : List Layer) (outs : List (Out (List Nat))) : Option (List (Arr (List Nat))) :=
  outs.mapM fun o => decodePages ks [(⟨o.rep, o.defs, layers⟩, o.data)]

/-- Some ranges of rows of a page of values of `bpv` bytes, in batches. -/
def loadFixed (bpv : Nat) (ks : List Kind) (p : Page) (ranges : List (Nat × Nat)) (batches : List Nat) : Option (List (Arr (List Nat))) :=
  (readFixed bpv (itemsPerRow ks) p ranges batches).bind (assemble ks p.layers)

/-- Some ranges of rows of a page of strings, in batches. -/
def loadStrings (ks : List Kind) (p : Page) (ranges : List (Nat × Nat)) (batches : List Nat) : Option (List (Arr (List Nat))) :=
  (readVariable p ranges batches).bind (assemble ks p.layers)

end Verif.Zip
