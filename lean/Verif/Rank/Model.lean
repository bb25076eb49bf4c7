import Verif.Util

/-!
# Model of the bit vector with rank support

Source: `kaminpar-common/datastructures/bitvector_rank.h` (BVR) with its default template arguments:
blocks of 512 bits of which 14 are the header, superblocks of `2^14` bits.  Words are natural numbers
below `2^64`; the counters (at most the length) do not overflow.
-/

namespace Verif.Rank

/-- `kBlockDataWidth`, BVR 35. -/
def blockData : Nat := 498
/-- `kBlockHeaderWidth`, BVR 34. -/
def header : Nat := 14
/-- `kNumWordsPerBlock`, BVR 37. -/
def blockWords : Nat := 8
/-- `kNumWordsPerSuperblock`, BVR 41. -/
def superWords : Nat := 256
/-- `kSuperblockDataWidth`, BVR 42-43. -/
def superData : Nat := 15936

/-- `math::div_ceil`. -/
def divCeil (a b : Nat) : Nat := (a + b - 1) / b

/-- `_length`, `_num_blocks`, `_data`, `_num_superblocks`, `_superblock_data`, BVR 261-266. -/
structure BV where
  length : Nat
  numBlocks : Nat
  numSuper : Nat
  data : Nat → Nat
  super : Nat → Nat

/-- The constructors, BVR 83-96 and 105-108; without a value the memory is zeroed. -/
def BV.new (length : Nat) (set : Bool) : BV :=
  { length, numBlocks := divCeil length blockData, numSuper := divCeil length superData
    data := fun _ => if set then 2 ^ 64 - 1 else 0, super := fun _ => 0 }

/-- `std::popcount`. -/
def popcount (w : Nat) : Nat := (List.range 64).countP w.testBit

/-- A left shift of 64-bit words.  Shifting by 64 or more is undefined, the model returns an arbitrary
value. -/
def shl (junk x s : Nat) : Nat := if s < 64 then x <<< s % 2 ^ 64 else junk

/-- The word and the bit of a position, BVR 122-128 (also 137-143, 153-157 and 172-179). -/
def wordOf (pos : Nat) : Nat :=
  let numBlock := pos / blockData
  let blockPos := pos % blockData + header
  numBlock * blockWords + blockPos / 64

def bitOf (pos : Nat) : Nat := (pos % blockData + header) % 64

/-- `unset`, BVR 121-129, `set`, BVR 136-144, and `set` with a value, BVR 152-163 (which has the same
effect).  `none`: access behind the end. -/
def BV.set? (b : BV) (pos : Nat) (value : Bool) : Option BV :=
  if b.numBlocks * blockWords ≤ wordOf pos then none
  else
    let mask := 1 <<< bitOf pos
    let w := b.data (wordOf pos)
    let w := (w &&& (2 ^ 64 - 1 - mask)) ||| (if value then mask else 0)
    some { b with data := upd b.data (wordOf pos) w }

/-- `is_set`, BVR 171-183. -/
def BV.isSet (b : BV) (pos : Nat) : Bool := (b.data (wordOf pos) >>> bitOf pos) &&& 1 == 1

/-- `block_popcount`, BVR 45-53, from word `i` on. -/
def blockPopcount (data : Nat → Nat) (i : Nat) : Nat :=
  (List.range 7).foldl (fun s j => s + popcount (data (i + (j + 1)))) (popcount (data i >>> header))

/-- The variables of `update`, BVR 190-195. -/
structure Acc where
  data : Nat → Nat
  super : Nat → Nat
  rank : Nat
  blockRank : Nat
  curSuper : Nat

/-- One iteration of the loop of `update`, BVR 196-209, for block `blk`. -/
def Acc.step (a : Acc) (blk : Nat) : Acc :=
  let i := blk * blockWords
  let a := if i % superWords = 0 then
      { a with
        rank := a.rank + a.blockRank
        super := upd a.super a.curSuper (a.rank + a.blockRank)
        curSuper := a.curSuper + 1
        blockRank := 0 }
    else a
  -- `setbits<Word>(kHeaderDataWidth, kBlockHeaderWidth)`, BVR 57-65
  let ones := (2 ^ 64 - 1) >>> (64 - (64 - header)) <<< header
  let data := upd a.data i ((a.data i &&& ones) ||| a.blockRank)
  { a with data := data, blockRank := a.blockRank + blockPopcount data i }

/-- `update`, BVR 189-210.  `none`: a superblock entry behind the end was written. -/
def BV.update? (b : BV) : Option BV :=
  let a := (List.range b.numBlocks).foldl Acc.step
    { data := b.data, super := b.super, rank := 0, blockRank := 0, curSuper := 0 }
  if a.curSuper ≤ b.numSuper then some { b with data := a.data, super := a.super } else none

/-- `rank`, BVR 218-249.  `none`: access behind the end. -/
def BV.rank? (junk : Nat) (b : BV) (pos : Nat) : Option Nat :=
  let numBlock := pos / blockData
  let blockPos := pos % blockData + header
  let numWord := blockPos / 64
  let wordPos := blockPos % 64
  if b.numBlocks ≤ numBlock ∨ b.numSuper ≤ pos / superData then none
  else
    let rank := b.super (pos / superData)
    let data := fun i => b.data (numBlock * blockWords + i)
    let first := data 0
    let rank := rank + (first &&& (2 ^ 64 - 1) >>> (64 - header))
    if numWord = 0 then
      let shift := (64 + header) - wordPos
      some (rank + popcount (shl junk (first >>> header) shift) *
        (if wordPos ≠ header then 1 else 0))
    else
      let rank := rank + popcount (first >>> header)
      let rank := (List.range (numWord - 1)).foldl (fun s j => s + popcount (data (j + 1))) rank
      let shift := 64 - wordPos
      some (rank + popcount (shl junk (data numWord) shift) * (if wordPos ≠ 0 then 1 else 0))

end Verif.Rank
