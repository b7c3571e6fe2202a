import Verif.RepDef.Model
/-!
# Columns in mini-block pages: arrays to a page, rows of the page to arrays

Puts together the levels (`Model.lean`) and mini-block pages (`Verif.Mini.Model`).
-/
namespace Verif.RepDef
open Verif.Mini (Codec Page writePage readPage)

/-- The arrays that are flushed together as one mini-block page: the levels and the values (`do_flush`, primitive.rs
4386-4500), the compressor chosen for the values, the page (`encode_miniblock`, 3889-4012).  The page's description names the compression;
here the page comes with its codec.  Not here: pages whose values are all null, dictionaries, and full zip pages. -/
def storeColumn {V : Type} (codecOf : List V → Codec V) (ks : List Kind) (arrs : List (Arr V)) : Option (Codec V × Page) :=
  match encode ks arrs with
  | none => none
  | some (rd, vals) => (writePage (codecOf vals) rd vals).map fun p => (codecOf vals, p)

/-- Some ranges of rows of a page, in batches: each batch is decoded to levels and values (`DecodeMiniBlockTask::decode`,
primitive.rs 700-825) and made an array (primitive.rs 3124-3150).  Batches within one page only. -/
def loadColumn {V : Type} (ks : List Kind) (stored : Codec V × Page) (ranges : List (Nat × Nat)) (batches : List Nat) :
    Option (List (Arr V)) :=
  match readPage stored.1 stored.2 ranges batches with
  | none => none
  | some outs => outs.mapM fun o => decodePages ks [(⟨o.rep, o.defs, stored.2.layers⟩, o.data)]

end Verif.RepDef
