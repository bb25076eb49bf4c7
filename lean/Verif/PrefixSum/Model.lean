import Verif.Util
import Verif.Math.Model

/-!
# Model of the aligned prefix sum

Source: `kaminpar-common/parallel/aligned_prefix_sum.h` (APS).  `begin` is an array of natural numbers;
overflow of `std::size_t` is not modelled.  `l i` is the pair of alignment and size of entry `i`.
-/

namespace Verif.PrefixSum
open Verif.Math

/-- `x += (alignment - x % alignment) % alignment`, APS 36, 44 and 67. -/
def alignUp (alignment x : Nat) : Nat := x + (alignment - x % alignment) % alignment

/-- One iteration of the loop, APS 32-41; `b` is the position of `begin` in the array. -/
def seqStep (l : Nat → Nat × Nat) (b : Nat) (m : Nat → Nat) (i : Nat) : Nat → Nat :=
  let m := if i > 0 ∧ (l i).1 > 0 then upd m (b + i) (alignUp (l i).1 (m (b + i))) else m
  upd m (b + i + 1) ((if i > 0 then m (b + i) else 0) + (l i).2)

/-- `aligned_prefix_sum_seq`, APS 20-49, on `num` array elements from `b` on: the array and the returned
value. -/
def seq (l : Nat → Nat × Nat) (b num : Nat) (m : Nat → Nat) : (Nat → Nat) × Nat :=
  if num = 0 then (m, 0)
  else
    let n := num - 1
    if n = 0 then (m, 0)
    else
      let m := (List.range n).foldl (seqStep l b) m
      let m := if (l n).1 > 0 then upd m (b + n) (alignUp (l n).1 (m (b + n))) else m
      (m, m (b + n))

/-- Body of the first parallel loop, APS 73-77, for the call `(from, to, cpu)`. -/
def pass1 (l : Nat → Nat × Nat) (m : Nat → Nat) (c : Nat × Nat × Nat) : Nat → Nat :=
  (seq (fun i => l (c.1 + i)) c.1 (c.2.1 + 1 - c.1) m).1

/-- The array `prefix_sums`, APS 80-90. -/
def prefixSums (n ncpus : Nat) (m : Nat → Nat) : Nat → Nat
  | 0 => 0
  | cpu + 1 =>
    match localRange? n ncpus (cpu + 1) with
    | none => 0
    | some (fr, to) => if fr = to then 0 else alignUp 8 (prefixSums n ncpus m cpu + m fr)

/-- Body of the second parallel loop, APS 95-99. -/
def pass2 (ps : Nat → Nat) (m : Nat → Nat) (c : Nat × Nat × Nat) : Nat → Nat :=
  (List.range' (c.1 + 1) (c.2.1 - c.1)).foldl (fun m i => upd m i (m i + ps c.2.2)) m

/-- `aligned_prefix_sum`, APS 51-103, with `ncpus` workers.  `calls1` and `calls2` are the calls of the
two loops in the order in which they are executed: the calls of a loop write disjoint parts of the array
and read nothing outside of their part. -/
def par (l : Nat → Nat × Nat) (num ncpus : Nat) (calls1 calls2 : List (Nat × Nat × Nat))
    (m : Nat → Nat) : (Nat → Nat) × Nat :=
  if num = 0 then (m, 0)
  else
    let m := upd m 0 0
    let n := num - 1
    if n = 0 then (m, 0)
    else
      let m := calls1.foldl (pass1 l) m
      let ps := prefixSums n ncpus m
      let m := calls2.foldl (pass2 ps) m
      (m, m n + (l n).2)

end Verif.PrefixSum
