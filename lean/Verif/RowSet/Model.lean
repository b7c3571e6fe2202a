import Verif.Common.Bm
import Verif.Common.SMap

/-!
# Row addresses, row sets and row filters

Model of `rust/lance-core/src/utils/address.rs` and `rust/lance-core/src/utils/mask.rs`.

Simplifications: `u32`/`u64` values are natural numbers, truncating casts are written as `% 2^32`;
`RoaringBitmap` is `Bm`, `BTreeMap` is `SMap`.  The boolean/count return values of `insert`,
`insert_range` and `remove` are not modelled, only the resulting set.
-/
namespace Verif.RowSet

/-- `u32::MAX + 1`. -/
scoped notation "U32" => (4294967296 : Nat)

/-! ## Row addresses (address.rs) -/

/-- address.rs:20-22 `RowAddress::new_from_parts`. -/
def newFromParts (frag off : Nat) : Nat := (frag <<< 32) ||| off

/-- address.rs:32-34 `RowAddress::fragment_id`: `(self.0 >> 32) as u32`. -/
def fragmentId (a : Nat) : Nat := (a >>> 32) % U32

/-- address.rs:36-38 `RowAddress::row_offset`: `self.0 as u32`. -/
def rowOffset (a : Nat) : Nat := a % U32

/-- address.rs:24-26 `RowAddress::first_row`. -/
def firstRow (frag : Nat) : Nat := newFromParts frag 0

/-- address.rs:28-30 `RowAddress::address_range`; `none` when `fragment_id + 1` overflows `u32`. -/
def addressRange (frag : Nat) : Option (Nat × Nat) :=
  if frag + 1 < U32 then some (firstRow frag, firstRow (frag + 1)) else none

/-- address.rs:14 `RowAddress::TOMBSTONE_ROW`. -/
def tombstoneRow : Nat := 0xffffffffffffffff

/-! ## Row sets (mask.rs) -/

/-- mask.rs:285-289 `RowIdSelection`. -/
inductive Sel where
  | full
  | part (s : Bm)
  deriving DecidableEq, Repr

/-- mask.rs:278-283 `RowIdTreeMap`. -/
abbrev TreeMap := SMap Sel

/-- mask.rs:459-467 `contains`. -/
def contains (m : TreeMap) (v : Nat) : Bool :=
  match m.get (fragmentId v) with
  | none => false
  | some .full => true
  | some (.part s) => s.has (rowOffset v)

/-- mask.rs:384-397 `insert`. -/
def insert (m : TreeMap) (v : Nat) : TreeMap :=
  match m.get (fragmentId v) with
  | none => m.insert (fragmentId v) (.part (Bm.insert (rowOffset v) []))
  | some .full => m
  | some (.part s) => m.insert (fragmentId v) (.part (Bm.insert (rowOffset v) s))

/-- `std::ops::Bound`. -/
inductive Bound where
  | incl (x : Nat)
  | excl (x : Nat)
  | unb
  deriving DecidableEq, Repr

/-- mask.rs:402-409, the first included value of the range (`saturating_add`). -/
def lowBound : Bound → Nat
  | .incl s => s
  | .excl s => min (s + 1) (U32 * U32 - 1)
  | .unb => 0

/-- mask.rs:411-418, the last included value of the range (`saturating_sub`). -/
def highBound : Bound → Nat
  | .incl e => e
  | .excl e => e - 1
  | .unb => U32 * U32 - 1

/-- mask.rs:423-440, one loop body: insert `lo..=hi` into fragment `frag`. -/
def insertRangeBody (m : TreeMap) (frag lo hi : Nat) : TreeMap :=
  match m.get frag with
  | none => m.insert frag (.part (Bm.union [] (Bm.range lo (hi + 1))))
  | some .full => m
  | some (.part s) => m.insert frag (.part (Bm.union s (Bm.range lo (hi + 1))))

/-- mask.rs:422-443, the loop; `n` is the number of remaining iterations
`end_high + 1 - start_high`. -/
def insertRangeLoop : Nat → TreeMap → Nat → Nat → Nat → Nat → TreeMap
  | 0, m, _, _, _, _ => m
  | n + 1, m, sh, sl, eh, el =>
    insertRangeLoop n (insertRangeBody m sh sl (if sh = eh then el else U32 - 1)) (sh + 1) 0 eh el

/-- mask.rs:400-446 `insert_range`.  `none`: `start_high += 1` overflows when the loop
reaches `end_high = u32::MAX` (panic in debug builds, endless loop in release builds). -/
def insertRange (m : TreeMap) (lo hi : Bound) : Option TreeMap :=
  let s := lowBound lo
  let e := highBound hi
  let sh := fragmentId s
  let eh := fragmentId e
  if sh ≤ eh ∧ eh = U32 - 1 then none
  else some (insertRangeLoop (eh + 1 - sh) m sh (rowOffset s) eh (rowOffset e))

/-- mask.rs:449-451 `insert_bitmap` (replaces). -/
def insertBitmap (m : TreeMap) (frag : Nat) (s : Bm) : TreeMap := m.insert frag (.part s)

/-- mask.rs:454-456 `insert_fragment`. -/
def insertFragment (m : TreeMap) (frag : Nat) : TreeMap := m.insert frag .full

/-- `RoaringBitmap::full()`. -/
def fullBm : Bm := Bm.range 0 U32

/-- mask.rs:469-488 `remove`. -/
def remove (m : TreeMap) (v : Nat) : TreeMap :=
  match m.get (fragmentId v) with
  | none => m
  | some .full => m.insert (fragmentId v) (.part (Bm.remove (rowOffset v) fullBm))
  | some (.part s) =>
    let s' := Bm.remove (rowOffset v) s
    if s' = [] then m.erase (fragmentId v) else m.insert (fragmentId v) (.part s')

/-- mask.rs:490-494 `retain_fragments`. -/
def retainFragments (m : TreeMap) (frags : List Nat) : TreeMap :=
  m.retain (fun f _ => frags.contains f)

/-- mask.rs:586-604 `BitOrAssign`, one right-hand entry.  Note that `Partial |= Full`
leaves the left side alone (line 597 has no `else`). -/
def orStep (m : TreeMap) (e : Nat × Sel) : TreeMap :=
  match m.get e.1, e.2 with
  | none, s => m.insert e.1 s
  | some .full, _ => m
  | some (.part l), .part r => m.insert e.1 (.part (Bm.union l r))
  | some (.part _), .full => m

/-- mask.rs:586-604 `BitOrAssign` / mask.rs:577-584 `BitOr`. -/
def or (m rhs : TreeMap) : TreeMap := rhs.foldl orStep m

/-- mask.rs:623-634, the value left in fragment `f` after intersecting. -/
def andSel (rhs : TreeMap) (f : Nat) (l : Sel) : Sel :=
  match l, rhs.get f with
  | l, none => l
  | l, some .full => l
  | .part a, some (.part b) => .part (Bm.inter a b)
  | .full, some (.part b) => .part b

/-- mask.rs:637-640, is the entry worth keeping? -/
def Sel.nonEmpty : Sel → Bool
  | .full => true
  | .part s => !s.isEmpty

/-- mask.rs:615-642 `BitAndAssign`. -/
def and (m rhs : TreeMap) : TreeMap :=
  let m1 := m.retain (fun f _ => (rhs.get f).isSome)
  let m2 := m1.mapVals (andSel rhs)
  m2.retain (fun _ s => s.nonEmpty)

/-- mask.rs:644-677 `SubAssign`, one right-hand entry. -/
def subStep (m : TreeMap) (e : Nat × Sel) : TreeMap :=
  match m.get e.1, e.2 with
  | none, _ => m
  | some .full, .full => m.erase e.1
  | some .full, .part r => m.insert e.1 (.part (Bm.diff fullBm r))
  | some (.part _), .full => m.erase e.1
  | some (.part l), .part r =>
    let s := Bm.diff l r
    if s = [] then m.erase e.1 else m.insert e.1 (.part s)

/-- mask.rs:644-677 `SubAssign`. -/
def sub (m rhs : TreeMap) : TreeMap := rhs.foldl subStep m

/-- mask.rs:679-701 `FromIterator<u64>` and mask.rs:709-729 `Extend<u64>`. -/
def extendIds (m : TreeMap) (ids : List Nat) : TreeMap := ids.foldl insert m

/-- mask.rs:738-761 `Extend<Self>`, one entry. -/
def extendStep (m : TreeMap) (e : Nat × Sel) : TreeMap :=
  match m.get e.1, e.2 with
  | none, s => m.insert e.1 s
  | some .full, _ => m
  | some (.part _), .full => m.insert e.1 .full
  | some (.part l), .part r => m.insert e.1 (.part (Bm.union l r))

/-- mask.rs:738-761 `Extend<Self>`. -/
def extendMaps (m : TreeMap) (others : List TreeMap) : TreeMap :=
  others.foldl (fun acc o => o.foldl extendStep acc) m

/-- mask.rs:305-315, union of the partial selections. -/
def accSel (acc : Bm) : Sel → Bm
  | .full => acc
  | .part b => Bm.union acc b

/-- mask.rs:301-322 `RowIdSelection::union_all`. -/
def unionSels (sels : List Sel) : Sel :=
  if sels.contains .full then .full
  else .part (sels.foldl accSel [])

/-- mask.rs:558-566, collect the selections per fragment. -/
def collectStep (acc : SMap (List Sel)) (e : Nat × Sel) : SMap (List Sel) :=
  acc.insert e.1 ((acc.get e.1).getD [] ++ [e.2])

/-- mask.rs:555-574 `union_all`. -/
def unionAll (maps : List TreeMap) : TreeMap :=
  let coll := maps.foldl (fun acc (m : TreeMap) => m.foldl collectStep acc) ([] : SMap (List Sel))
  coll.mapVals (fun _ sels => unionSels sels)

/-- mask.rs:338-346, one fragment. -/
def lenStep (acc : Option Nat) (e : Nat × Sel) : Option Nat :=
  acc.bind (fun a => match e.2 with | .full => none | .part s => some (s.length + a))

/-- mask.rs:338-346 `len` (`None` if a whole fragment is selected). -/
def len (m : TreeMap) : Option Nat := m.foldl lenStep (some 0)

/-- mask.rs:352-370 `row_ids`. -/
def rowIds (m : TreeMap) : Option (List Nat) :=
  let inner := m.filterMap (fun e => match e.2 with
    | .full => none
    | .part s => some (s.map (newFromParts e.1)))
  if inner.length ≠ m.length then none else some inner.flatten

/-! ## Serialization of row sets (mask.rs:497-553) -/

/-- A byte codec for bitmaps, standing for `RoaringBitmap::{serialize_into, deserialize_from}`;
`serialized_size` is the length of the encoding. -/
structure Codec where
  enc : Bm → List Nat
  dec : List Nat → Option Bm

/-- `write_u32::<LittleEndian>` (of a value already cast `as u32`). -/
def u32le (n : Nat) : List Nat := [n % 256, n / 256 % 256, n / 65536 % 256, n / 16777216 % 256]

/-- `read_u32::<LittleEndian>`; `none` at end of input. -/
def readU32 : List Nat → Option (Nat × List Nat)
  | a :: b :: c :: d :: rest => some (a + 256 * b + 65536 * c + 16777216 * d, rest)
  | _ => none

/-- mask.rs:524-532, one entry. -/
def serEntry (C : Codec) (e : Nat × Sel) : List Nat :=
  match e.2 with
  | .full => u32le e.1 ++ u32le 0
  | .part s => u32le e.1 ++ (u32le (C.enc s).length ++ C.enc s)

/-- mask.rs:522-534 `serialize_into`. -/
def serialize (C : Codec) (m : TreeMap) : List Nat :=
  u32le m.length ++ (m.map (serEntry C)).flatten

/-- The bitmap part of the size of one entry (mask.rs:501-505). -/
def selSize (C : Codec) : Sel → Nat
  | .full => 0
  | .part s => (C.enc s).length

/-- mask.rs:497-508 `serialized_size`. -/
def serializedSize (C : Codec) (m : TreeMap) : Nat :=
  m.foldl (fun n e => n + 8 + selSize C e.2) 4

/-- mask.rs:540-551, read the remaining `n` entries. -/
def desEntries (C : Codec) : Nat → List Nat → TreeMap → Option TreeMap
  | 0, _, acc => some acc
  | n + 1, bytes, acc =>
    match readU32 bytes with
    | none => none
    | some (frag, bytes) =>
      match readU32 bytes with
      | none => none
      | some (size, bytes) =>
        if size = 0 then desEntries C n bytes (acc.insert frag .full)
        else if bytes.length < size then none
        else match C.dec (bytes.take size) with
          | none => none
          | some s => desEntries C n (bytes.drop size) (acc.insert frag (.part s))

/-- mask.rs:537-553 `deserialize_from`. -/
def deserialize (C : Codec) (bytes : List Nat) : Option TreeMap :=
  match readU32 bytes with
  | none => none
  | some (n, bytes) => desEntries C n bytes []

/-! ## Row filters (mask.rs:27-266) -/

/-- mask.rs:28-33 `RowIdMask`. -/
structure Mask where
  allow : Option TreeMap
  block : Option TreeMap
  deriving DecidableEq, Repr

/-- mask.rs:66-75 `selected`. -/
def selected (m : Mask) (v : Nat) : Bool :=
  match m.allow, m.block with
  | none, none => true
  | some a, none => contains a v
  | none, some b => !contains b v
  | some a, some b => contains a v && !contains b v

/-- The positions at which `p` holds (`enumerate().filter().map(idx)`). -/
def positions (p : Nat → Bool) : List Nat → Nat → List Nat
  | [], _ => []
  | x :: xs, i => if p x then i :: positions p xs (i + 1) else positions p xs (i + 1)

/-- mask.rs:78-110 `selected_indices`; `none` is the panic of line 107. -/
def selectedIndices (m : Mask) (ids : List Nat) : Option (List Nat) :=
  match m.block, m.allow with
  | some b, some a => some (positions (fun v => !contains b v && contains a v) ids 0)
  | some b, none => some (positions (fun v => !contains b v) ids 0)
  | none, some a => some (positions (fun v => contains a v) ids 0)
  | none, none => none

/-- mask.rs:113-128 `also_block`. -/
def alsoBlock (m : Mask) (b : TreeMap) : Mask :=
  if b = [] then m
  else match m.block with
    | some e => ⟨m.allow, some (or e b)⟩
    | none => ⟨m.allow, some b⟩

/-- mask.rs:131-145 `also_allow`. -/
def alsoAllow (m : Mask) (a : TreeMap) : Mask :=
  match m.allow with
  | some e => ⟨some (or e a), m.block⟩
  | none => ⟨none, m.block⟩

/-- mask.rs:209-218 `Not`. -/
def maskNot (m : Mask) : Mask := ⟨m.block, m.allow⟩

/-- mask.rs:220-241 `BitAnd`. -/
def maskAnd (l r : Mask) : Mask :=
  { block := match l.block, r.block with
      | none, none => none
      | some a, none => some a
      | none, some b => some b
      | some a, some b => some (or a b)
    allow := match l.allow, r.allow with
      | none, none => none
      | some a, none => some a
      | none, some b => some b
      | some a, some b => some (and a b) }

/-- mask.rs:243-266 `BitOr`. -/
def maskOr (l r : Mask) : Mask :=
  { block := match l.block, r.block with
      | none, none => none
      | some a, none => some a
      | none, some b => some b
      | some a, some b => some (and a b)
    allow := match l.allow, r.allow with
      | none, none => none
      | some _, none => none
      | none, some _ => none
      | some a, some b => some (or a b) }

/-- mask.rs:159-185 `into_arrow`: validity flags and the two binary values. -/
def maskIntoArrow (C : Codec) (m : Mask) : (Bool × Bool) × (List Nat × List Nat) :=
  let blen := match m.block with | none => 0 | some b => serializedSize C b
  let alen := match m.allow with | none => 0 | some a => serializedSize C a
  let bbytes := match m.block with | none => [] | some b => serialize C b
  let abytes := match m.allow with | none => [] | some a => serialize C a
  -- both are written into one buffer and cut at the announced lengths
  let buf := bbytes ++ abytes
  ((m.block.isSome, m.allow.isSome), (buf.take blen, (buf.drop blen).take alen))

/-- mask.rs:188-206 `from_arrow`. -/
def maskFromArrow (C : Codec) (arr : (Bool × Bool) × (List Nat × List Nat)) : Option Mask :=
  let b : Option (Option TreeMap) :=
    if arr.1.1 then (deserialize C arr.2.1).map some else some none
  let a : Option (Option TreeMap) :=
    if arr.1.2 then (deserialize C arr.2.2).map some else some none
  match b, a with
  | some b, some a => some ⟨a, b⟩
  | _, _ => none

end Verif.RowSet
