import Verif.Util

/-!
# Model of the byte-compact array

Source: `kaminpar-common/datastructures/compact_static_array.h` (CSA), on a little-endian machine.
-/

namespace Verif.CompactArray

/-- Data members, CSA 331-338, the width `I = sizeof(Int)` and the number of allocated bytes. -/
structure Arr where
  I : Nat
  bw : Nat
  size : Nat
  num : Nat
  usize : Nat
  unum : Nat
  alloc : Nat
  mem : Nat → Nat

/-- `resize`, CSA 195-209, and the constructor, CSA 154-157; `make_unique` zeroes the bytes.  `none`:
assertion violated, or elements wider than `Int`. -/
def Arr.new? (I bw n : Nat) : Option Arr :=
  if bw < 1 ∨ 8 < bw ∨ I < bw then none
  else
    let size := n * bw + I - bw
    some { I, bw, size, num := n, usize := size, unum := n, alloc := size, mem := fun _ => 0 }

/-- The constructor that takes over existing memory, CSA 166-181. -/
def Arr.ofData? (I bw size : Nat) (mem : Nat → Nat) : Option Arr :=
  if bw < 1 ∨ 8 < bw ∨ I < bw ∨ size < I - bw then none
  else
    let n := (size - (I - bw)) / bw
    some { I, bw, size, num := n, usize := size, unum := n, alloc := size, mem := mem }

/-- `restrict`, CSA 216-224. -/
def Arr.restrict? (a : Arr) (n : Nat) : Option Arr :=
  if n ≤ a.num then
    some { a with usize := a.size, size := n * a.bw + a.I - a.bw, unum := a.num, num := n }
  else none

/-- `unrestrict`, CSA 230-233. -/
def Arr.unrestrict (a : Arr) : Arr := { a with size := a.usize, num := a.unum }

/-- The loop of `write`, CSA 245-249; `none`: write behind the allocation. -/
def writeBytes (alloc : Nat) : Nat → Nat → (Nat → Nat) → Nat → Option (Nat → Nat)
  | 0, _, mem, _ => some mem
  | n + 1, p, mem, v =>
    if p < alloc then writeBytes alloc n (p + 1) (upd mem p (v &&& 0b11111111)) (v >>> 8) else none

/-- `write`, CSA 241-250. -/
def Arr.write? (a : Arr) (pos v : Nat) : Option Arr :=
  if a.num ≤ pos ∨ 2 ^ (8 * a.bw) ≤ v then none
  else (writeBytes a.alloc a.bw (pos * a.bw) a.mem v).map fun mem => { a with mem := mem }

/-- `memcpy` of `n` bytes into a zeroed integer, CSA 48-50 and 261-263; `none`: read behind the
allocation. -/
def readBytes (alloc : Nat) (mem : Nat → Nat) : Nat → Nat → Option Nat
  | 0, _ => some 0
  | n + 1, p => if p < alloc then (readBytes alloc mem n (p + 1)).map (mem p + 256 * ·) else none

/-- `operator[]`, CSA 258-264. -/
def Arr.get? (a : Arr) (pos : Nat) : Option Nat :=
  if a.num ≤ pos then none else readBytes a.alloc a.mem a.bw (pos * a.bw)

/-- Iterating from `begin()` (CSA 271-273) with `++` (CSA 57-59) and `*` (CSA 47-51) until `end()`
(CSA 280-283).  `none`: the iterator never meets the end. -/
def Arr.iterFrom (a : Arr) : Nat → Nat → Option (List Nat)
  | 0, _ => none
  | fuel + 1, p =>
    if p = a.size - (a.I - a.bw) then some []
    else do
      let x ← readBytes a.alloc a.mem a.bw p
      let l ← a.iterFrom fuel (p + a.bw)
      some (x :: l)

/-- The whole iteration. -/
def Arr.iter? (a : Arr) : Option (List Nat) := a.iterFrom (a.size + 1) 0

end Verif.CompactArray
