import Verif.Math.Model

/-!
# Model of the number of blocks in distributed deep multilevel partitioning

Source: `kaminpar-dist/partitioning/deep_multilevel.cc` (DML).

Only the number of blocks `dist_p_graph.k()` is followed.  The subgraphs of the blocks are partitioned into `k_per_block` blocks each,
and `copy_subgraph_partitions` multiplies the number of blocks by `k_per_block` (`subgraph_extractor.cc` 633-634 and 711-712).
Block IDs are 32-bit words.
-/

namespace Verif.Dist
open Verif.Math

/-- What becomes of a computation: it ends with `k` blocks, has undefined behaviour, or has not ended within the steps granted to it. -/
inductive Outcome where
  | done (k : Nat)
  | undefined
  | running
deriving DecidableEq

/-- One iteration of the loop in `extend_partition`, DML 205-241, from `c` blocks towards `desired` blocks. -/
def extendStep (K desired c : Nat) : Nat :=
  c * (min desired (c * K % 2 ^ 32) / c)

/-- The loop in `extend_partition`, DML 204-276. -/
def extendLoop (K desired : Nat) : Nat → Nat → Outcome
  | 0, c => if c < desired then .running else .done c
  | fuel + 1, c => if c < desired then extendLoop K desired fuel (extendStep K desired c) else .done c

/-- `desired_k`, DML 196-203, for a graph with `n` nodes; `C` is the contraction limit. -/
def desiredBlocks? (k C inputN n : Nat) : Option Nat :=
  (ceil2? 64 (n / C)).map fun c => if inputN = n then k else min k c

/-- `extend_partition`, DML 193-277. -/
def extendPartition (k K C inputN fuel n c : Nat) : Outcome :=
  match desiredBlocks? k C inputN n with
  | none => .undefined
  | some d => extendLoop K d fuel c

/-- The loop over the levels, DML 284-334; `levels` are the numbers of nodes of the graphs after each uncoarsening. -/
def extendLevels (k K C inputN fuel : Nat) : List Nat → Nat → Outcome
  | [], c => .done c
  | n :: levels, c =>
    match extendPartition k K C inputN fuel n c with
    | .done c' => extendLevels k K C inputN fuel levels c'
    | o => o

/-- The number of blocks of the result of `partition`: the initial partition has `min(k, K)` blocks, DML 59 and 127, then come the
levels, then the extension on the input graph, DML 339-363. -/
def deepBlocks (k K C inputN fuel : Nat) (levels : List Nat) : Outcome :=
  match extendLevels k K C inputN fuel levels (min k K) with
  | .done c => if c ≠ k then extendPartition k K C inputN fuel inputN c else .done c
  | o => o

end Verif.Dist
