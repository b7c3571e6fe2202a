import Verif.RowIds.Sequence

/-!
# Stored form of row id sequences

Models `rust/lance-table/src/rowids/serde.rs`: the conversions between `RowIdSequence` and the
protobuf messages.  The byte encoding of the messages is `prost`'s and is trusted (a message is
decoded to the message that was encoded).  Fields that are messages or oneofs may be missing:
`none`.
-/
namespace Verif.RowIds
namespace Serde

/-- protos/rowids.proto `EncodedU64Array`. -/
inductive PbArr where
  | u16 (base : Nat) (offsets : List Nat)
  | u32 (base : Nat) (offsets : List Nat)
  | u64 (values : List Nat)
deriving DecidableEq

/-- protos/rowids.proto `U64Segment`. -/
inductive PbSeg where
  | range (s e : Nat)
  | holes (s e : Nat) (h : Option (Option PbArr))
  | bitmap (s e : Nat) (data : List Nat)
  | sorted (a : Option PbArr)
  | array (a : Option PbArr)
deriving DecidableEq

/-- protos/rowids.proto `RowIdSequence`. -/
abbrev PbSeq := List (Option PbSeg)

inductive Err where
  | panic
  | invalid
deriving DecidableEq

/-- `to_le_bytes` of an integer of `w` bytes. -/
def leBytes : Nat → Nat → List Nat
  | 0, _ => []
  | w + 1, v => v % 256 :: leBytes w (v / 256)

/-- `from_le_bytes`. -/
def fromLe : List Nat → Nat
  | [] => 0
  | b :: bs => b + 256 * fromLe bs

/-- `chunks_exact(w)`, run for `n` chunks. -/
def chunksExact (w : Nat) : Nat → List Nat → List (List Nat)
  | 0, _ => []
  | n + 1, l => l.take w :: chunksExact w n (l.drop w)

/-- serde.rs:67-75, 78-86, 89-102: bytes to integers of `w` bytes; the `assert!` is a panic. -/
def readInts (w : Nat) (bytes : List Nat) : Except Err (List Nat) :=
  if bytes.length % w = 0 then .ok ((chunksExact w (bytes.length / w) bytes).map fromLe) else .error .panic

/-- serde.rs:163-166, 174-177, 184-187. -/
def writeInts (w : Nat) (l : List Nat) : List Nat := l.flatMap (leBytes w)

/-- serde.rs:156-193. -/
def encArr : Enc → Option PbArr
  | .u16 b o => some (.u16 b (writeInts 2 o))
  | .u32 b o => some (.u32 b (writeInts 4 o))
  | .u64 v => some (.u64 (writeInts 8 v))

/-- serde.rs:59-109. -/
def decArr : Option PbArr → Except Err Enc
  | none => .error .invalid
  | some (.u16 b o) => (readInts 2 o).map (.u16 b)
  | some (.u32 b o) => (readInts 4 o).map (.u32 b)
  | some (.u64 v) => (readInts 8 v).map .u64

/-- serde.rs:119-154. -/
def encSeg : Seg → Option PbSeg
  | .range s e => some (.range s e)
  | .holes s e h => some (.holes s e (some (encArr h)))
  | .bitmap s e b => some (.bitmap s e b.data)
  | .sorted a => some (.sorted (encArr a))
  | .array a => some (.array (encArr a))

/-- serde.rs:24-57; `end - start` may underflow. -/
def decSeg : Option PbSeg → Except Err Seg
  | none => .error .invalid
  | some (.range s e) => .ok (.range s e)
  | some (.holes _ _ none) => .error .invalid
  | some (.holes s e (some h)) => (decArr h).map (.holes s e)
  | some (.bitmap s e d) => if e < s then .error .panic else .ok (.bitmap s e ⟨d, e - s⟩)
  | some (.sorted a) => (decArr a).map .sorted
  | some (.array a) => (decArr a).map .array

/-- serde.rs:111-117. -/
def encSeq (q : Seq) : PbSeq := q.map encSeg

/-- serde.rs:11-22. -/
def decSeq : PbSeq → Except Err Seq
  | [] => .ok []
  | p :: ps =>
    match decSeg p with
    | .error e => .error e
    | .ok sg =>
      match decSeq ps with
      | .error e => .error e
      | .ok q => .ok (sg :: q)

end Serde
end Verif.RowIds
