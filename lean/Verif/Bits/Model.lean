/-!
# Bit helpers

Models `rust/lance-core/src/utils/bit.rs`.
-/
namespace Verif.Bits

/-- bit.rs:4-6 `is_pwr_two`; `n - 1` underflows for `n = 0` (panic, `none`). -/
def isPwrTwo (n : Nat) : Option Bool :=
  if n = 0 then none else some (decide (n &&& (n - 1) = 0))

/-- bit.rs:8-22 `pad_bytes`, `pad_bytes_to`, `pad_bytes_u64` (the same expression three times); the
alignment is positive, otherwise `align - 1` underflows (`none`). -/
def padBytes (align n : Nat) : Option Nat :=
  if align = 0 then none else some ((align - (n &&& (align - 1))) &&& (align - 1))

/-- bit.rs:24-34 `LOG_TABLE_256`. -/
def logTable : List Nat := [
    0, 1, 2, 2, 3, 3, 3, 3, 4, 4, 4, 4, 4, 4, 4, 4, 5, 5, 5, 5, 5, 5, 5, 5, 5, 5, 5, 5, 5, 5, 5, 5,
    6, 6, 6, 6, 6, 6, 6, 6, 6, 6, 6, 6, 6, 6, 6, 6, 6, 6, 6, 6, 6, 6, 6, 6, 6, 6, 6, 6, 6, 6, 6, 6,
    7, 7, 7, 7, 7, 7, 7, 7, 7, 7, 7, 7, 7, 7, 7, 7, 7, 7, 7, 7, 7, 7, 7, 7, 7, 7, 7, 7, 7, 7, 7, 7,
    7, 7, 7, 7, 7, 7, 7, 7, 7, 7, 7, 7, 7, 7, 7, 7, 7, 7, 7, 7, 7, 7, 7, 7, 7, 7, 7, 7, 7, 7, 7, 7,
    8, 8, 8, 8, 8, 8, 8, 8, 8, 8, 8, 8, 8, 8, 8, 8, 8, 8, 8, 8, 8, 8, 8, 8, 8, 8, 8, 8, 8, 8, 8, 8,
    8, 8, 8, 8, 8, 8, 8, 8, 8, 8, 8, 8, 8, 8, 8, 8, 8, 8, 8, 8, 8, 8, 8, 8, 8, 8, 8, 8, 8, 8, 8, 8,
    8, 8, 8, 8, 8, 8, 8, 8, 8, 8, 8, 8, 8, 8, 8, 8, 8, 8, 8, 8, 8, 8, 8, 8, 8, 8, 8, 8, 8, 8, 8, 8,
    8, 8, 8, 8, 8, 8, 8, 8, 8, 8, 8, 8, 8, 8, 8, 8, 8, 8, 8, 8, 8, 8, 8, 8, 8, 8, 8, 8, 8, 8, 8, 8]

/-- bit.rs:39-62 `log_2_ceil`; `none` is the failed assertion (`val > 0`) or an index out of the
table. -/
def log2Ceil (val : Nat) : Option Nat :=
  if val = 0 then none
  else
    let upperHalf := val >>> 16
    if upperHalf = 0 then
      let thirdQuarter := val >>> 8
      if thirdQuarter = 0 then logTable[val]?
      else (logTable[thirdQuarter]?).map (· + 8)
    else
      let firstQuarter := upperHalf >>> 8
      if firstQuarter = 0 then (logTable[upperHalf]?).map (16 + ·)
      else (logTable[firstQuarter]?).map (24 + ·)

end Verif.Bits
