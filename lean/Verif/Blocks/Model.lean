import Verif.Math.Model

/-!
# Model of the block tree arithmetic

Source: `kaminpar-shm/partitioning/partition_utils.cc`.  `BlockID` is a 32-bit unsigned integer.
-/

namespace Verif.Blocks
open Verif.Math

/-- Look-up table of reversed nibbles, `partition_utils.cc:41`. -/
def nibbleLut : List Nat := [0, 8, 4, 12, 2, 10, 6, 14, 1, 9, 5, 13, 3, 11, 7, 15]

/-- `lut[i]`; the code's indices are always below 16. -/
def lut (i : Nat) : Nat := nibbleLut.getD i 0

/-- The 32-bit reversal before the final shift, `partition_utils.cc:42-46`. -/
def reverse32 (block : Nat) : Nat :=
  lut ((block &&& 0xF0000000) >>> 28) ||| (lut ((block &&& 0x0F000000) >>> 24) <<< 4) |||
  (lut ((block &&& 0x00F00000) >>> 20) <<< 8) ||| (lut ((block &&& 0x000F0000) >>> 16) <<< 12) |||
  (lut ((block &&& 0x0000F000) >>> 12) <<< 16) ||| (lut ((block &&& 0x00000F00) >>> 8) <<< 20) |||
  (lut ((block &&& 0x000000F0) >>> 4) <<< 24) ||| (lut (block &&& 0x0000000F) <<< 28)

/-- `compute_final_k`, `partition_utils.cc:21-50`.  `none` models undefined behaviour:
`floor_log2(0)`, and the shift `>> (32 - level)` by 32 when `level = 0`. -/
def finalK? (block currentK inputK : Nat) : Option Nat :=
  if currentK = inputK then some 1
  else do
    let level ← floorLog2? 32 currentK
    let base := inputK >>> level
    let numPlusOne := inputK &&& (2 ^ level - 1)
    if 32 - level ≥ 32 then none
    else
      let reversed := reverse32 block >>> (32 - level)
      some (base + (if reversed < numPlusOne then 1 else 0))

/-- The loop of `compute_first_sub_block`, `partition_utils.cc:62-76`.  `width` is a 32-bit unsigned
integer and wraps.  `fuel` bounds the number of iterations; `none` means that the loop did not stop
within `fuel` iterations. -/
def firstSubLoop (block currentK : Nat) : (fuel width mask value ans : Nat) → Option Nat
  | 0, _, _, _, _ => none
  | fuel + 1, width, mask, value, ans =>
    if width ≤ currentK then
      let width := (width * 2) % 2 ^ 32
      let lr := splitIntegral value
      if block &&& mask ≠ 0 then firstSubLoop block currentK fuel width (mask >>> 1) lr.2 (ans + lr.1)
      else firstSubLoop block currentK fuel width (mask >>> 1) lr.1 ans
    else some ans

/-- `compute_first_sub_block`, `partition_utils.cc:53-76`.  At most 33 iterations are possible unless
the loop diverges (`currentK ≥ 2^31`, where `width` wraps to 0), hence fuel 40. -/
def firstSubBlock? (block currentK inputK : Nat) : Option Nat :=
  if currentK = 1 then some 0
  else do
    let level ← ceilLog2? 32 currentK
    firstSubLoop block currentK 40 1 (2 ^ (level - 1)) inputK 0

/-- `compute_first_invalid_sub_block`, `partition_utils.cc:85-90`. -/
def firstInvalidSubBlock? (block currentK inputK : Nat) : Option Nat := do
  let a ← firstSubBlock? block currentK inputK
  let b ← finalK? block currentK inputK
  some (a + b)

/-- `compute_k_for_n`, `partition_utils.cc:92-100`; `limit` is the contraction limit `C`, `k` the
number of blocks.  `none`: division by zero, shift overflow, or `std::clamp` with `lo = 2 > hi = k`
(undefined).  `2 * C` is computed in 64 bits (`contraction_limit` is a `NodeID`; overflow of the
32-bit product is not modelled). -/
def kForN? (n limit k : Nat) : Option Nat :=
  if n < 2 * limit then some 2
  else if limit = 0 then none
  else do
    let l ← ceilLog2? 32 (n / limit)
    if l ≥ 32 then none
    else if k < 2 then none
    else
      let k' := 2 ^ l
      some (if k' < 2 then 2 else if k < k' then k else k')

/-- `compute_next_k`, `partition_utils.cc:131-133` (the 32-bit product `current_k * 2` wraps). -/
def nextK (currentK k : Nat) : Nat := min ((currentK * 2) % 2 ^ 32) k

/-- `compute_num_copies`, `partition_utils.cc:102-123`.  `std::ceil(std::log2(1.0 * n / C))` is
computed in floating point; the model uses the least `e` with `n ≤ C * 2^e`. -/
def ceilLogRatio (n c : Nat) : Nat → Nat
  | 0 => 0
  | fuel + 1 => if n ≤ c then 0 else 1 + ceilLogRatio n (2 * c) fuel

/-- see `ceilLogRatio`; fuel 32 suffices for 32-bit `n`. -/
def numCopies? (n c : Nat) (converged : Bool) (threads : Nat) : Option Nat :=
  if threads = 0 then none
  else if converged ∨ n ≤ 2 * c then some threads
  else if c = 0 then none
  else
    let f := 2 ^ ceilLogRatio n c 32
    if f > threads then some 1 else some (threads / f)

end Verif.Blocks
