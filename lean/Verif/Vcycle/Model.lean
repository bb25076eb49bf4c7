import Verif.Subgraph.Model

/-!
# Model of deep multilevel partitioning with v-cycles

Source: `kaminpar-shm/partitioning/deep/vcycle_deep_multilevel.cc` (VCD).  The deep multilevel partitioner that runs in each v-cycle is a
parameter.  Debug output and assertions are left out.
-/

namespace Verif.Vcycle
open Verif.Math Verif.Blocks Verif.Subgraph

/-- The value of a 64-bit integer after the conversion to `int`. -/
def toInt32 (x : Int) : Int := (x + 2 ^ 31) % 2 ^ 32 - 2 ^ 31

/-- `std::accumulate` with the initial value `0`, VCD 48-50: the accumulator is an `int`.  If block weights have 64 bits (`wide`), each sum is
converted to an `int`; otherwise an overflow is undefined.  Sums in 64 bits are unbounded integers. -/
def accumulate? (wide : Bool) : Int → List Int → Option Int
  | acc, [] => some acc
  | acc, x :: xs =>
    if wide = true then accumulate? wide (toInt32 (acc + x)) xs
    else if -2 ^ 31 ≤ acc + x ∧ acc + x < 2 ^ 31 then accumulate? wide (acc + x) xs
    else none

/-- `num_sub_blocks`, VCD 35-45; `next` is `next_block_weights.size()`. -/
def subBlocks? (currentK next b : Nat) : Option Nat :=
  (floorLog2? 32 currentK).bind fun level =>
    if b < 2 * (currentK - 2 ^ level) then (ceil2? 32 currentK).bind fun c => finalKRoot? b (min c next) next
    else (floor2? 32 currentK).bind fun f => finalKRoot? (b - (currentK - 2 ^ level)) f next

/-- One iteration of the loop in `compute_max_block_weights`, VCD 33-57; the state is `cur_begin` and the limits so far.  Reading beyond the
end of `next_block_weights` is undefined. -/
def limitStep? (wide : Bool) (currentK : Nat) (next : List Int) (s : Nat × List Int) (b : Nat) : Option (Nat × List Int) :=
  (subBlocks? currentK next.length b).bind fun n =>
    if s.1 + n ≤ next.length then (accumulate? wide 0 ((next.drop s.1).take n)).map fun x => (s.1 + n, s.2 ++ [x]) else none

/-- `compute_max_block_weights`, VCD 19-61; `limits` are the limits of the input, and their number is the `k` of the input. -/
def maxBlockWeights? (wide : Bool) (currentK : Nat) (limits next : List Int) : Option (List Int) :=
  (floorLog2? 32 currentK).bind fun _ =>
    if currentK = limits.length then some limits
    else ((List.range currentK).foldlM (limitStep? wide currentK next) (0, [])).map (·.2)

/-- The limits of all v-cycles, VCD 76-97: from the last one to the first one; the list is `vcycle_block_weights` after it was reversed. -/
def vcycleLimits? (wide : Bool) (steps : List Nat) (limits : List Int) : Option (List (List Int)) :=
  (steps ++ [limits.length]).reverse.foldlM (fun acc c => (maxBlockWeights? wide c limits (acc.headD [])).map (· :: acc)) []

/-- The deep multilevel partitioner: the limits of its blocks, and the communities with their limits unless it is the first v-cycle. -/
abbrev DeepFn := List Int → Option (List Nat × List Int) → Option (List Nat)

/-- The loop over the v-cycles, VCD 99-160; the partition of a v-cycle gives the communities of the next one. -/
def vcycleLoop? (deep : DeepFn) : List (List Int) → Option (List Nat × List Int) → List Nat → Option (List Nat)
  | [], _, part => some part
  | lim :: rest, comm, _ => (deep lim comm).bind fun p => vcycleLoop? deep rest (some (p, lim)) p

/-- `VcycleDeepMultilevelPartitioner::partition`, VCD 71-163: the partition and its number of blocks. -/
def vcyclePartition? (wide : Bool) (steps : List Nat) (limits : List Int) (n : Nat) (deep : DeepFn) : Option (List Nat × Nat) :=
  (vcycleLimits? wide steps limits).bind fun l => (vcycleLoop? deep l none (List.replicate n 0)).map fun p => (p, limits.length)

end Verif.Vcycle
