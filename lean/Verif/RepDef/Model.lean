import Verif.Mini.Model
/-!
# Repetition and definition levels (file format 2.1)

A nested column (structs and lists around some values) is written in format 2.1 as values together with
*repetition levels*, which say where lists start, and *definition levels*, which say what is null or
empty.  On the way in, the validity bitmaps and the list offsets of Arrow arrays are turned into
levels; on the way out the levels are unraveled into bitmaps and offsets again.

Modelled from `rust/lance-encoding/src/repdef.rs` 100-338, 461-1608, from the encoders and decoders of
lists (`encodings/logical/list.rs` 1280-1310, 1428-1455), of structs (`encodings/logical/struct.rs`
860-895, 678-712) and of values (`encodings/logical/primitive.rs` 3074-3150, 4501-4525), and from
`rust/lance-arrow/src/list.rs`.

Panics and errors are `none`; `debug_assert`s are not modelled.  Levels are natural numbers (the code
has `u16`s, which do not overflow for columns of less than 32768 layers), and so are offsets.
-/
namespace Verif.RepDef
open Verif.Mini (Layer RepDefs)

/-! ### Collecting bitmaps and offsets -/

/-- `SpecialOffset`, repdef.rs 772-784: a null or an empty list. -/
inductive Special
  | nullList (pos : Nat)
  | emptyList (pos : Nat)
  deriving DecidableEq, Repr

/-- `SpecialOffset::pos`, repdef.rs 778-783. -/
def Special.pos : Special → Nat
  | .nullList p => p
  | .emptyList p => p

/-- `OffsetDesc`, repdef.rs 102-109. -/
structure OffsetDesc where
  offsets : List Nat
  specials : List Special
  validity : Option (List Bool)
  hasEmpty : Bool
  numValues : Nat
  deriving DecidableEq, Repr

/-- `RawRepDef`, repdef.rs 111-138: the offsets of a list layer, the validity of a layer of structs or
values, the validity of a layer of fixed size lists. -/
inductive Raw
  | offsets (d : OffsetDesc)
  | validity (bits : Option (List Bool)) (n : Nat)
  | fsl (bits : Option (List Bool)) (dim n : Nat)
  deriving DecidableEq, Repr

/-- `RepDefBuilder`, repdef.rs 791-801; the outermost layer first. -/
structure Builder where
  raws : List Raw
  len : Option Nat
  deriving DecidableEq, Repr

def Builder.empty : Builder := ⟨[], none⟩

/-- The length a layer must have, repdef.rs 804-809, 882-884, 895-899. -/
def Builder.fits (b : Builder) (n : Nat) : Bool :=
  match b.len with
  | none => true
  | some l => n == l

/-- `add_validity_bitmap` and `add_no_null`, repdef.rs 863-879, as `extract_validity_buf` (primitive.rs
4501-4507) and the struct encoder (struct.rs 874-878) call them. -/
def Builder.addBits (b : Builder) (bits : Option (List Bool)) (len : Nat) : Option Builder :=
  let n := match bits with | some bs => bs.length | none => len
  if b.fits n then some ⟨b.raws ++ [.validity bits n], some n⟩ else none

/-- `add_fsl`, repdef.rs 881-892. -/
def Builder.addFsl (b : Builder) (bits : Option (List Bool)) (dim n : Nat) : Option Builder :=
  if b.fits n then some ⟨b.raws ++ [.fsl bits dim n], some (n * dim)⟩ else none

/-- What `add_offsets` works out: the normalized offsets (without the first, 0), the null and empty
lists, whether there are empty lists, and whether there are null lists that are not empty. -/
structure Norm where
  offsets : List Nat
  specials : List Special
  hasEmpty : Bool
  garbage : Bool
  deriving DecidableEq, Repr

/-- The loop of `add_offsets` with a validity bitmap, repdef.rs 925-943 and 972-990. -/
def normWith : List Nat → List Bool → Nat → Nat → Norm
  | a :: b :: rest, v :: vs, idx, last =>
    if v = false then
      let r := normWith (b :: rest) vs (idx + 1) last
      ⟨last :: r.offsets, .nullList idx :: r.specials, r.hasEmpty, decide (b - a ≠ 0) || r.garbage⟩
    else if b - a = 0 then
      let r := normWith (b :: rest) vs (idx + 1) last
      ⟨last :: r.offsets, .emptyList idx :: r.specials, true, r.garbage⟩
    else
      let r := normWith (b :: rest) vs (idx + 1) (last + (b - a))
      ⟨(last + (b - a)) :: r.offsets, r.specials, r.hasEmpty, r.garbage⟩
  | _, _, _, _ => ⟨[], [], false, false⟩

/-- The loop of `add_offsets` without a validity bitmap, repdef.rs 945-953 and 992-1000. -/
def normPlain : List Nat → Nat → Nat → Norm
  | a :: b :: rest, idx, last =>
    let r := normPlain (b :: rest) (idx + 1) (last + (b - a))
    if b - a = 0 then ⟨(last + (b - a)) :: r.offsets, .emptyList idx :: r.specials, true, r.garbage⟩
    else ⟨(last + (b - a)) :: r.offsets, r.specials, r.hasEmpty, r.garbage⟩
  | _, _, _ => ⟨[], [], false, false⟩

/-- The loop of `add_offsets`. -/
def norm (offs : List Nat) (bits : Option (List Bool)) : Norm :=
  match bits with
  | some bs => normWith offs bs 0 0
  | none => normPlain offs 0 0

/-- `add_offsets`, repdef.rs 902-1012 (with `check_offset_len`, 895-900); also returns whether there is
garbage under null lists.  The branches for 32 and 64 bit offsets do the same. -/
def Builder.addOffsets (b : Builder) (offs : List Nat) (bits : Option (List Bool)) : Option (Builder × Bool) :=
  let r := norm offs bits
  if b.fits r.offsets.length then
    some (⟨b.raws ++ [.offsets ⟨0 :: r.offsets, r.specials, bits, r.hasEmpty, r.offsets.length⟩],
      some ((0 :: r.offsets).getLastD 0)⟩, r.garbage)
  else none

/-! ### Serializing -/

/-- `RawRepDef::has_nulls`, repdef.rs 142-148. -/
def Raw.hasNulls : Raw → Bool
  | .offsets d => d.validity.isSome
  | .validity bits _ => bits.isSome
  | .fsl bits _ _ => bits.isSome

/-- `RawRepDef::num_values`, repdef.rs 151-157. -/
def Raw.numValues : Raw → Nat
  | .offsets d => d.numValues
  | .validity _ n => n
  | .fsl _ _ n => n

/-- The validity of a layer, all valid where there is no bitmap. -/
def Raw.bits : Raw → List Bool
  | .offsets d => d.validity.getD (List.replicate d.numValues true)
  | .validity bits n => bits.getD (List.replicate n true)
  | .fsl bits _ n => bits.getD (List.replicate n true)

/-- The validity of some layers together, repdef.rs 1073-1078 and 1150-1154: no bitmap unless one of them
has one. -/
def concatBits (layers : List Raw) : Option (List Bool) :=
  if layers.any Raw.hasNulls then some (layers.flatMap Raw.bits) else none

/-- A special of a later builder, repdef.rs 1120-1127. -/
def Special.shift (k : Nat) : Special → Special
  | .nullList p => .nullList (p + k)
  | .emptyList p => .emptyList (p + k)

/-- The offsets and specials of some layers together, repdef.rs 1108-1148. -/
def concatOffsets : List OffsetDesc → List Nat → List Special → List Nat × List Special
  | [], offs, sp => (offs, sp)
  | d :: ds, offs, sp =>
    concatOffsets ds (offs ++ (d.offsets.drop 1).map (· + offs.getLastD 0))
      (sp ++ d.specials.map (Special.shift (offs.length - 1)))

/-- The layer as one of offsets. -/
def Raw.offsets? : Raw → Option OffsetDesc
  | .offsets d => some d
  | _ => none

def Raw.isValidity : Raw → Bool
  | .validity _ _ => true
  | _ => false

def Raw.isFsl : Raw → Bool
  | .fsl _ _ _ => true
  | _ => false

/-- The dimension of a layer of fixed size lists. -/
def Raw.dim : Raw → Nat
  | .fsl _ d _ => d
  | _ => 0

/-- `concat_layers`, repdef.rs 1023-1173.  Layers of different kinds are never put together; the model
stops there. -/
def concatLayers (layers : List Raw) : Option Raw :=
  let n := (layers.map Raw.numValues).sum
  match layers with
  | .validity _ _ :: _ =>
    if layers.all Raw.isValidity then some (.validity (concatBits layers) n) else none
  | .fsl _ _ _ :: _ =>
    if layers.all Raw.isFsl then some (.fsl (concatBits layers) ((layers.map Raw.dim).getLastD 0) n) else none
  | .offsets _ :: _ =>
    match layers.mapM Raw.offsets? with
    | none => none
    | some ds =>
      let r := concatOffsets ds [0] []
      some (.offsets ⟨r.1, r.2, concatBits layers, ds.any OffsetDesc.hasEmpty, n⟩)
  | [] => some (.validity none 0)

/-- `SpecialRecord`, repdef.rs 93-98. -/
structure Record where
  pos : Nat
  dfn : Nat
  rep : Nat
  deriving DecidableEq, Repr

/-- `SerializerContext`, repdef.rs 535-548.  `last` holds `last_offsets` and `last_offsets_full`. -/
structure Ctx where
  last : Option (List (Nat × Nat))
  specials : List Record
  layers : List Layer
  rep : List Nat
  defs : List Nat
  curRep : Nat
  curDef : Nat
  mult : Nat
  hasNulls : Bool
  deriving DecidableEq, Repr

/-- `SerializerContext::new`, repdef.rs 551-573. -/
def Ctx.new (len : Nat) (hasNulls hasOffsets : Bool) : Ctx :=
  ⟨none, [], [], if hasOffsets then List.replicate len 0 else [], if hasNulls then List.replicate len 0 else [],
    1, 1, 1, false⟩

/-- `checkout_def`, repdef.rs 575-580. -/
def Ctx.checkout (c : Ctx) (l : Layer) : Ctx := { c with curDef := c.curDef + l.defLevels, layers := c.layers ++ [l] }

/-- The meaning of a list layer, repdef.rs 591-608. -/
def listLayer (nulls empties : Bool) : Layer :=
  match nulls, empties with
  | true, true => .nullableAndEmptyableList
  | true, false => .nullableList
  | false, true => .emptyableList
  | false, false => .allValidList

/-- The levels of null and of empty lists, repdef.rs 591-608, where `level` is the first one free. -/
def listLevels (nulls empties : Bool) (level : Nat) : Nat × Nat :=
  match nulls, empties with
  | true, true => (level, level + 1)
  | true, false => (level, 0)
  | false, true => (0, level)
  | false, false => (0, 0)

/-- Assignment to an element, which panics out of range. -/
def setAt (l : List Nat) (i x : Nat) : Option (List Nat) := if i < l.length then some (l.set i x) else none

/-- Where list `a` of the layer below starts, repdef.rs 616-617 and 631-632. -/
def startOf (last : Option (List (Nat × Nat))) (a : Nat) : Option (Nat × Nat) :=
  match last with
  | none => some (a, a)
  | some l => l[a]?

/-- The first loop of `record_offsets`, repdef.rs 610-640: the new `last_offsets` and `last_offsets_full`, and
the repetition levels. -/
def offsetsLoop (last : Option (List (Nat × Nat))) (lvl : Nat) :
    List Nat → Nat → List Nat → Option (List (Nat × Nat) × List Nat)
  | a :: b :: rest, seen, rep =>
    match startOf last a with
    | none => none
    | some (o, f) =>
      if a = b then
        (offsetsLoop last lvl (b :: rest) (seen + 1) rep).map fun r => ((o, f + seen) :: r.1, r.2)
      else
        match setAt rep o lvl with
        | none => none
        | some rep' => (offsetsLoop last lvl (b :: rest) seen rep').map fun r => ((o, f + seen) :: r.1, r.2)
  | _, _, rep => some ([], rep)

/-- The record of a new special, repdef.rs 662-671 and 680-688. -/
def Special.record (s : Special) (pos lvl nullLvl emptyLvl : Nat) : Record :=
  ⟨pos, match s with | .nullList _ => nullLvl | .emptyList _ => emptyLvl, lvl⟩

/-- The second loop of `record_offsets`, repdef.rs 650-690: merge the specials of the layers below with those
of this layer.  The counter is the number of rounds left. -/
def specialsLoop (full : List (Nat × Nat)) (lvl nullLvl emptyLvl : Nat) :
    Nat → List Record → List Special → Nat → Option (List Record)
  | 0, _, _, _ => some []
  | n + 1, old :: olds, new :: news, ins =>
    match full[new.pos]? with
    | none => none
    | some p =>
      if old.pos + ins < p.2 then
        (specialsLoop full lvl nullLvl emptyLvl n olds (new :: news) ins).map ({ old with pos := old.pos + ins } :: ·)
      else
        (specialsLoop full lvl nullLvl emptyLvl n (old :: olds) news (ins + 1)).map
          (new.record p.2 lvl nullLvl emptyLvl :: ·)
  | n + 1, old :: olds, [], ins =>
    (specialsLoop full lvl nullLvl emptyLvl n olds [] ins).map ({ old with pos := old.pos + ins } :: ·)
  | n + 1, [], new :: news, ins =>
    match full[new.pos]? with
    | none => none
    | some p =>
      (specialsLoop full lvl nullLvl emptyLvl n [] news (ins + 1)).map (new.record p.2 lvl nullLvl emptyLvl :: ·)
  | _ + 1, [], [], _ => none

/-- `record_offsets`, repdef.rs 582-691.  Offsets on top of fixed size lists are `todo!`. -/
def Ctx.recordOffsets (c : Ctx) (d : OffsetDesc) : Option Ctx :=
  if c.mult ≠ 1 then none
  else
    let lvls := listLevels d.validity.isSome d.hasEmpty c.curDef
    match offsetsLoop c.last c.curRep d.offsets 0 c.rep with
    | none => none
    | some (last, rep) =>
      match specialsLoop last c.curRep lvls.1 lvls.2 (c.specials.length + d.specials.length) c.specials d.specials 0 with
      | none => none
      | some specials =>
        some { c.checkout (listLayer d.validity.isSome d.hasEmpty) with
          last := some last, rep := rep, specials := specials, curRep := c.curRep + 1 }

/-- `fill` of a slice, which panics out of range. -/
def fill (l : List Nat) (a b x : Nat) : Option (List Nat) :=
  if a ≤ b ∧ b ≤ l.length then some (l.take a ++ List.replicate (b - a) x ++ l.drop b) else none

/-- The loop of `do_record_validity` over lists, repdef.rs 697-706. -/
def fillLoop (mult lvl : Nat) : List Nat → List Bool → List Nat → Option (List Nat)
  | a :: b :: rest, v :: vs, defs =>
    if v = false then
      match fill defs (a * mult) (b * mult) lvl with
      | none => none
      | some defs' => fillLoop mult lvl (b :: rest) vs defs'
    else fillLoop mult lvl (b :: rest) vs defs
  | _, _, defs => some defs

/-- The loops of `do_record_validity` without lists, repdef.rs 707-728. -/
def markNulls (lvl : Nat) : List Nat → List Bool → List Nat
  | d :: ds, v :: vs => (if v then d else lvl) :: markNulls lvl ds vs
  | ds, _ => ds

/-- `do_record_validity`, repdef.rs 693-730. -/
def Ctx.doRecord (c : Ctx) (bits : List Bool) (lvl : Nat) : Option Ctx :=
  if c.defs = [] then none
  else
    match c.last with
    | some last =>
      (fillLoop c.mult lvl (last.map (·.1)) bits c.defs).map fun ds => { c with defs := ds, hasNulls := true }
    | none =>
      some { c with defs := markNulls lvl c.defs (bits.flatMap fun v => List.replicate c.mult v), hasNulls := true }

/-- `record_validity_buf`, repdef.rs 732-739. -/
def Ctx.recordBits (c : Ctx) (bits : Option (List Bool)) : Option Ctx :=
  match bits with
  | some bs => (c.checkout .nullableItem).doRecord bs c.curDef
  | none => some (c.checkout .allValidItem)

/-- One layer, repdef.rs 741-748 and 1217-1228. -/
def Ctx.record (c : Ctx) : Raw → Option Ctx
  | .validity bits _ => c.recordBits bits
  | .fsl bits dim _ => Ctx.recordBits { c with mult := c.mult * dim } bits
  | .offsets d => c.recordOffsets d

/-- All layers, the innermost first. -/
def Ctx.recordAll : List Raw → Ctx → Option Ctx
  | [], c => some c
  | r :: rs, c =>
    match c.record r with
    | none => none
    | some c' => Ctx.recordAll rs c'

/-- What is left of the levels, and what was pushed (latest first), in `collapse_specials`.  `defs` is `none` if
there are no definition levels. -/
structure Collapse where
  rep : List Nat
  defs : Option (List Nat)
  outRep : List Nat
  outDef : List Nat
  deriving DecidableEq, Repr

/-- An entry that is no special, repdef.rs 268-278, 280-290, 306-316 and 318-328: if a special was pushed just
before (`after`) they swap their repetition levels. -/
def Collapse.item (c : Collapse) (after : Bool) : Option Collapse :=
  match c.rep, c.defs with
  | [], _ => none
  | _, some [] => none
  | r :: rs, some (d :: ds) => some ⟨rs, some ds, push r, d :: c.outDef⟩
  | r :: rs, none => some ⟨rs, none, push r, 0 :: c.outDef⟩
where
  push (r : Nat) : List Nat :=
    match after, c.outRep with
    | true, last :: older => last :: r :: older
    | _, _ => r :: c.outRep

/-- The loop of `collapse_specials`, repdef.rs 254-330.  The counter is the number of rounds left. -/
def collapseLoop : Nat → Nat → List Record → Collapse → Bool → Option (List Nat × List Nat)
  | 0, _, _, c, _ => some (c.outRep.reverse, c.outDef.reverse)
  | n + 1, idx, [], c, after =>
    match c.item after with
    | none => none
    | some c' => collapseLoop n (idx + 1) [] c' false
  | n + 1, idx, s :: ss, c, after =>
    if s.pos = idx then
      collapseLoop n (idx + 1) ss { c with outRep := s.rep :: c.outRep, outDef := s.dfn :: c.outDef } true
    else
      match c.item after with
      | none => none
      | some c' => collapseLoop n (idx + 1) (s :: ss) c' false

/-- `collapse_specials`, repdef.rs 237-337. -/
def collapse (rep defs : Option (List Nat)) (specials : List Record) (layers : List Layer) : Option RepDefs :=
  if specials = [] then some ⟨rep, defs, layers⟩
  else
    match rep with
    | none => none
    | some rep =>
      (collapseLoop (rep.length + specials.length) 0 specials ⟨rep, defs, [], []⟩ false).map fun r =>
        ⟨some r.1, some r.2, layers⟩

/-- `build`, repdef.rs 750-767, and the collapse of the specials. -/
def Ctx.build (c : Ctx) : Option RepDefs :=
  collapse (if c.curRep > 1 then some c.rep else none) (if c.hasNulls then some c.defs else none) c.specials c.layers

/-- `RepDefBuilder::is_empty`, repdef.rs 817-821. -/
def Builder.isEmpty (b : Builder) : Bool :=
  b.raws.all fun r => match r with | .validity none _ => true | _ => false

/-- `RepDefBuilder::has_nulls`, repdef.rs 832-846. -/
def Builder.hasNulls (b : Builder) : Bool :=
  b.raws.any fun r => match r with | .validity (some _) _ => true | .fsl (some _) _ _ => true | _ => false

/-- `RepDefBuilder::has_offsets`, repdef.rs 848-852. -/
def Builder.hasOffsets (b : Builder) : Bool :=
  b.raws.any fun r => match r with | .offsets _ => true | _ => false

/-- Layer `i` of each builder put together, repdef.rs 1203-1210. -/
def combined (bs : List Builder) (i : Nat) : Option Raw :=
  match bs.mapM (fun b => b.raws[i]?) with
  | none => none
  | some ls => concatLayers ls

/-- `RepDefBuilder::serialize`, repdef.rs 1177-1231. -/
def serialize (bs : List Builder) : Option RepDefs :=
  match bs with
  | [] => none
  | b :: _ =>
    if bs.all Builder.isEmpty then some ⟨none, none, b.raws.map fun _ => Layer.allValidItem⟩
    else
      match bs.mapM Builder.len, (List.range b.raws.length).mapM (combined bs) with
      | some lens, some layers =>
        match Ctx.recordAll layers.reverse (Ctx.new lens.sum (bs.any Builder.hasNulls) (bs.any Builder.hasOffsets)) with
        | none => none
        | some c => c.build
      | _, _ => none

/-! ### Unraveling -/

/-- `RepDefUnraveler`, repdef.rs 1238-1252. -/
structure Unraveler where
  rep : Option (List Nat)
  defs : Option (List Nat)
  toRep : List Nat
  layers : List Layer
  defCmp : Nat
  repCmp : Nat
  cur : Nat
  deriving DecidableEq, Repr

/-- The loop that fills `levels_to_rep`, repdef.rs 1266-1289. -/
def levelsToRep : List Layer → Nat → List Nat
  | [], _ => []
  | .allValidItem :: ls, k => levelsToRep ls k
  | .allValidList :: ls, k => levelsToRep ls k
  | .nullableItem :: ls, k => k :: levelsToRep ls k
  | .nullableList :: ls, k => (k + 1) :: levelsToRep ls (k + 1)
  | .emptyableList :: ls, k => (k + 1) :: levelsToRep ls (k + 1)
  | .nullableAndEmptyableList :: ls, k => (k + 1) :: (k + 1) :: levelsToRep ls (k + 1)

/-- `RepDefUnraveler::new`, repdef.rs 1256-1299. -/
def Unraveler.new (rd : RepDefs) : Unraveler := ⟨rd.rep, rd.defs, 0 :: levelsToRep rd.layers 0, rd.layers, 0, 0, 0⟩

/-- `DefinitionInterpretation::is_all_valid`, repdef.rs 484-489. -/
def isAllValid : Layer → Bool
  | .allValidItem => true
  | .allValidList => true
  | .emptyableList => true
  | _ => false

/-- `RepDefUnraveler::is_all_valid`, repdef.rs 1301-1303. -/
def Unraveler.allValid (u : Unraveler) : Option Bool := (u.layers[u.cur]?).map isAllValid

/-- What the loop of `unravel_offsets` makes: the levels kept, the offsets and validity pushed, and the length
at the end. -/
structure Unr where
  rep : List Nat
  defs : List Nat
  offsets : List Nat
  bits : List Bool
  len : Nat
  deriving DecidableEq, Repr

/-- The loop of `unravel_offsets` with definition levels, repdef.rs 1380-1425. -/
def offsetsWith (nullLvl emptyLvl : Nat) : List Nat → List Nat → Nat → Unr
  | r :: rs, d :: ds, len =>
    if r ≠ 0 then
      if d = 0 then
        let u := offsetsWith nullLvl emptyLvl rs ds (len + 1)
        ⟨(r - 1) :: u.rep, d :: u.defs, len :: u.offsets, true :: u.bits, u.len⟩
      else if d > max nullLvl emptyLvl then
        let u := offsetsWith nullLvl emptyLvl rs ds len
        ⟨(r - 1) :: u.rep, d :: u.defs, u.offsets, u.bits, u.len⟩
      else if d = nullLvl then
        let u := offsetsWith nullLvl emptyLvl rs ds len
        ⟨(r - 1) :: u.rep, d :: u.defs, len :: u.offsets, false :: u.bits, u.len⟩
      else if d = emptyLvl then
        let u := offsetsWith nullLvl emptyLvl rs ds len
        ⟨(r - 1) :: u.rep, d :: u.defs, len :: u.offsets, true :: u.bits, u.len⟩
      else
        let u := offsetsWith nullLvl emptyLvl rs ds (len + 1)
        ⟨(r - 1) :: u.rep, d :: u.defs, len :: u.offsets, true :: u.bits, u.len⟩
    else offsetsWith nullLvl emptyLvl rs ds (len + 1)
  | _, _, len => ⟨[], [], [], [], len⟩

/-- The loop of `unravel_offsets` without definition levels, repdef.rs 1427-1446. -/
def offsetsPlain : List Nat → Nat → Unr
  | r :: rs, len =>
    let u := offsetsPlain rs (len + 1)
    if r ≠ 0 then ⟨(r - 1) :: u.rep, [], len :: u.offsets, true :: u.bits, u.len⟩ else u
  | [], len => ⟨[], [], [], [], len⟩

/-- The levels of null and empty lists, repdef.rs 1334-1349; `none` for a layer that is no list. -/
def unravelLevels : Layer → Nat → Option (Nat × Nat)
  | .nullableList, v => some (v + 1, 0)
  | .emptyableList, v => some (0, v + 1)
  | .nullableAndEmptyableList, v => some (v + 1, v + 2)
  | .allValidList, _ => some (0, 0)
  | _, _ => none

/-- `RepDefUnraveler::unravel_offsets`, repdef.rs 1324-1455: the unraveler after it, and the offsets and the
validity with those of this unraveler appended.  That offsets fit into 32 bits is not checked. -/
def Unraveler.offsets (u : Unraveler) (offs : List Nat) (bits : Option (List Bool)) :
    Option (Unraveler × List Nat × Option (List Bool)) :=
  match u.rep, u.layers[u.cur]? with
  | some rep, some l =>
    match unravelLevels l u.defCmp with
    | none => none
    | some (nl, el) =>
      let len := offs.getLastD 0
      let offs := offs.dropLast
      match u.defs with
      | some ds =>
        if rep.length = ds.length then
          let r := offsetsWith nl el rep ds len
          some (⟨some r.rep, some r.defs, u.toRep, u.layers, u.defCmp + l.defLevels, u.repCmp + 1, u.cur + 1⟩,
            offs ++ r.offsets ++ [r.len], bits.map (· ++ r.bits))
        else none
      | none =>
        let r := offsetsPlain rep len
        some (⟨some ((r.rep ++ rep.drop r.rep.length).take (offs ++ r.offsets).length), none, u.toRep, u.layers,
            u.defCmp + l.defLevels, u.repCmp + 1, u.cur + 1⟩,
          offs ++ r.offsets ++ [r.len], bits.map (· ++ r.bits))
  | _, _ => none

/-- `skip_validity`, repdef.rs 1457-1462. -/
def Unraveler.skip (u : Unraveler) : Unraveler := { u with cur := u.cur + 1 }

/-- The levels seen at a repetition level and whether they are valid, repdef.rs 1475-1484.  An index out of range
panics. -/
def seenValid (toRep : List Nat) (repCmp defCmp : Nat) : List Nat → Option (List Bool)
  | [] => some []
  | d :: ds =>
    match toRep[d]?, seenValid toRep repCmp defCmp ds with
    | some k, some out => some (if k ≤ repCmp then decide (d ≤ defCmp) :: out else out)
    | _, _ => none

/-- `RepDefUnraveler::unravel_validity`, repdef.rs 1465-1487. -/
def Unraveler.validity (u : Unraveler) (bits : List Bool) : Option (Unraveler × List Bool) :=
  match u.defs with
  | none => none
  | some ds =>
    (seenValid u.toRep u.repCmp u.defCmp ds).map fun out =>
      ({ u with cur := u.cur + 1, defCmp := u.defCmp + 1 }, bits ++ out)

/-- Every `dim`-th element, repdef.rs 1508-1517; `skip` elements are passed first. -/
def everyNth (dim : Nat) : Nat → List Nat → List Nat
  | _, [] => []
  | 0, d :: ds => d :: everyNth dim (dim - 1) ds
  | n + 1, _ :: ds => everyNth dim n ds

/-- `decimate`, repdef.rs 1489-1519.  With repetition levels it is `todo!`; with a dimension of 0 the loop runs
out of the buffer, and the model stops. -/
def Unraveler.decimate (dim : Nat) (u : Unraveler) : Option Unraveler :=
  if u.rep.isSome then none
  else
    match u.defs with
    | none => some u
    | some ds => if dim = 0 then none else some { u with defs := some (everyNth dim 0 ds) }

/-- The unravelers of some pages, one after the other, each adding to the validity. -/
def validityLoop : List Unraveler → List Bool → Option (List Unraveler × List Bool)
  | [], bits => some ([], bits)
  | u :: us, bits =>
    match u.validity bits with
    | none => none
    | some (u', bits') => (validityLoop us bits').map fun r => (u' :: r.1, r.2)

/-- `CompositeRepDefUnraveler::unravel_validity`, repdef.rs 1547-1568. -/
def unravelValidity (us : List Unraveler) : Option (List Unraveler × Option (List Bool)) :=
  match us.mapM Unraveler.allValid with
  | none => none
  | some flags =>
    if flags.all id then some (us.map Unraveler.skip, none)
    else (validityLoop us []).map fun r => (r.1, some r.2)

/-- `unravel_fsl_validity`, repdef.rs 1570-1579. -/
def unravelFsl (us : List Unraveler) (dim : Nat) : Option (List Unraveler × Option (List Bool)) :=
  match us.mapM (Unraveler.decimate dim) with
  | none => none
  | some us' => unravelValidity us'

/-- The unravelers of some pages, one after the other, each adding to the offsets. -/
def offsetsFrom : List Unraveler → List Nat → Option (List Bool) →
    Option (List Unraveler × List Nat × Option (List Bool))
  | [], offs, bits => some ([], offs, bits)
  | u :: us, offs, bits =>
    match u.offsets offs bits with
    | none => none
    | some (u', offs', bits') => (offsetsFrom us offs' bits').map fun r => (u' :: r.1, r.2)

/-- `CompositeRepDefUnraveler::unravel_offsets`, repdef.rs 1582-1608. -/
def unravelOffsets (us : List Unraveler) : Option (List Unraveler × List Nat × Option (List Bool)) :=
  match us.mapM Unraveler.allValid with
  | none => none
  | some flags => offsetsFrom us [] (if flags.all id then none else some [])

/-! ### Arrays -/

/-- An Arrow array along the path to one of its leaves: values, and structs, lists and fixed size lists around
them, each with an optional validity bitmap.  (A struct has other children, too; each child is a column of its
own, written with the validity of the structs around it, struct.rs 879-892.) -/
inductive Arr (V : Type)
  | prim (vals : List V) (bits : Option (List Bool))
  | struct (child : Arr V) (bits : Option (List Bool))
  | list (offsets : List Nat) (child : Arr V) (bits : Option (List Bool))
  | fsl (dim : Nat) (child : Arr V) (bits : Option (List Bool))
  deriving DecidableEq, Repr

/-- `Array::len`. -/
def Arr.len {V : Type} : Arr V → Nat
  | .prim vals _ => vals.length
  | .struct c _ => c.len
  | .list offs _ _ => offs.length - 1
  | .fsl dim c _ => c.len / dim

/-- `Array::slice`: the bitmap and the values or offsets are cut; the values of a list are not. -/
def Arr.slice {V : Type} (s n : Nat) : Arr V → Arr V
  | .prim vals bits => .prim ((vals.drop s).take n) (bits.map fun b => (b.drop s).take n)
  | .struct c bits => .struct (c.slice s n) (bits.map fun b => (b.drop s).take n)
  | .list offs c bits => .list ((offs.drop s).take (n + 1)) c (bits.map fun b => (b.drop s).take n)
  | .fsl dim c bits => .fsl dim (c.slice (s * dim) (n * dim)) (bits.map fun b => (b.drop s).take n)

/-- The elements that a mask keeps. -/
def keep {A : Type} : List Bool → List A → List A
  | m :: ms, a :: as => if m then a :: keep ms as else keep ms as
  | _, _ => []

/-- The bitmap of a filtered array: none if no nulls are left. -/
def keepBits (mask : List Bool) (bits : Option (List Bool)) : Option (List Bool) :=
  match bits with
  | none => none
  | some bs => if (keep mask bs).all id then none else some (keep mask bs)

/-- The lengths of lists. -/
def lensOf : List Nat → List Nat
  | a :: b :: rest => (b - a) :: lensOf (b :: rest)
  | _ => []

/-- Offsets from lengths. -/
def offsetsOf : List Nat → Nat → List Nat
  | [], at_ => [at_]
  | n :: ns, at_ => at_ :: offsetsOf ns (at_ + n)

/-- The mask of the values of lists, from a mask of the lists: nothing before the first list and nothing after
the last one is kept. -/
def valueMask (offs : List Nat) (mask : List Bool) (n : Nat) : List Bool :=
  let m := List.replicate (offs.headD 0) false ++
    ((lensOf offs).zip mask).flatMap fun x => List.replicate x.1 x.2
  m ++ List.replicate (n - m.length) false

/-- `arrow_select::filter::filter`: the elements that a mask keeps. -/
def Arr.filter {V : Type} (mask : List Bool) : Arr V → Arr V
  | .prim vals bits => .prim (keep mask vals) (keepBits mask bits)
  | .struct c bits => .struct (c.filter mask) (keepBits mask bits)
  | .list offs c bits =>
    .list (offsetsOf (keep mask (lensOf offs)) 0) (c.filter (valueMask offs mask c.len)) (keepBits mask bits)
  | .fsl dim c bits => .fsl dim (c.filter (mask.flatMap fun m => List.replicate dim m)) (keepBits mask bits)

/-- `trimmed_values`, lance-arrow/src/list.rs 75-88. -/
def trimmed {V : Type} (offs : List Nat) (c : Arr V) : Arr V := c.slice (offs.headD 0) (offs.getLastD 0 - offs.headD 0)

/-- The values that the list encoder passes on, list.rs 1290-1297: `trimmed_values`, after
`filter_garbage_nulls` (lance-arrow/src/list.rs 29-73) if there is garbage. -/
def listValues {V : Type} (offs : List Nat) (bits : Option (List Bool)) (c : Arr V) (garbage : Bool) : Arr V :=
  match garbage, bits with
  | true, some bs =>
    let lens := ((lensOf offs).zip bs).map fun x => if x.2 then x.1 else 0
    trimmed (offsetsOf lens 0) (c.filter (valueMask offs bs c.len))
  | _, _ => trimmed offs c

/-- The type of a column along the path to a leaf, the outermost layer first. -/
inductive Kind
  | struct
  | list
  | fsl (dim : Nat)
  deriving DecidableEq, Repr

/-- `maybe_encode` of the encoders of a column: the structs (struct.rs 862-893), the lists (list.rs 1281-1310),
and the values with the fixed size lists right around them (primitive.rs 4509-4542): the builder and the values
as they get to the innermost encoder. -/
def collect {V : Type} : List Kind → Arr V → Builder → Option (Builder × List V)
  | [], .prim vals bits, b => (b.addBits bits vals.length).map fun b' => (b', vals)
  | .struct :: ks, .struct c bits, b =>
    match b.addBits bits c.len with
    | none => none
    | some b' => collect ks c b'
  | .list :: ks, .list offs c bits, b =>
    match b.addOffsets offs bits with
    | none => none
    | some (b', garbage) => collect ks (listValues offs bits c garbage) b'
  | .fsl dim :: ks, .fsl _ c bits, b =>
    match b.addFsl bits dim (c.len / dim) with
    | none => none
    | some b' => collect ks c b'
  | _, _, _ => none

/-- The levels and values of a page made of some arrays. -/
def encode {V : Type} (ks : List Kind) (arrs : List (Arr V)) : Option (RepDefs × List V) :=
  match arrs.mapM (fun a => collect ks a Builder.empty) with
  | none => none
  | some rs => (serialize (rs.map (·.1))).map fun rd => (rd, rs.flatMap (·.2))

/-- The decoders of a column: values and fixed size lists (primitive.rs 3075-3150), lists (list.rs 1428-1455) and
structs (struct.rs 678-712).  The unravelers go through the layers from the innermost one outwards.  The
constructors of the arrays check that the lengths match. -/
def decode {V : Type} : List Kind → List Unraveler → List V → Option (List Unraveler × Arr V)
  | [], us, vals =>
    match unravelValidity us with
    | none => none
    | some (us', bits) =>
      if bits.all (fun b => b.length == vals.length) then some (us', .prim vals bits) else none
  | .struct :: ks, us, vals =>
    match decode ks us vals with
    | none => none
    | some (us', c) =>
      match unravelValidity us' with
      | none => none
      | some (us'', bits) =>
        if bits.all (fun b => b.length == c.len) then some (us'', .struct c bits) else none
  | .fsl dim :: ks, us, vals =>
    match decode ks us vals with
    | none => none
    | some (us', c) =>
      match unravelFsl us' dim with
      | none => none
      | some (us'', bits) =>
        if bits.all (fun b => b.length == c.len / dim) then some (us'', .fsl dim c bits) else none
  | .list :: ks, us, vals =>
    match decode ks us vals with
    | none => none
    | some (us', c) =>
      match unravelOffsets us' with
      | none => none
      | some (us'', offs, bits) =>
        if offs ≠ [] ∧ offs.getLastD 0 ≤ c.len ∧ bits.all (fun b => b.length == offs.length - 1) then
          some (us'', .list offs c bits)
        else none

/-- The array read from some pages (or parts of pages), primitive.rs 3124-3150. -/
def decodePages {V : Type} (ks : List Kind) (pages : List (RepDefs × List V)) : Option (Arr V) :=
  (decode ks (pages.map fun p => Unraveler.new p.1) (pages.flatMap (·.2))).map (·.2)

end Verif.RepDef
