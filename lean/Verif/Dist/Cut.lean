import Verif.Dist.Comm

/-!
# Model of the metrics of a distributed partition

Sources: `kaminpar-dist/metrics.cc` (MET), `kaminpar-dist/datastructures/distributed_partitioned_graph.cc` (DPG),
`kaminpar-dist/datastructures/distributed_csr_graph.cc` (DCC), `kaminpar-dist/dkaminpar.cc` (DK).

An overflow of a signed sum is undefined: `none`.
-/

namespace Verif.Dist

/-- The bound of 32-bit integers (`EdgeWeight`, `NodeWeight` in the default build). -/
def B32 : Int := 2147483648

/-- The bound of 64-bit integers (`GlobalEdgeWeight`, `GlobalNodeWeight`, `BlockWeight`). -/
def B64 : Int := 9223372036854775808

/-- A signed addition with the bound `B`. -/
def add? (B a b : Int) : Option Int := if -B ≤ a + b ∧ a + b < B then some (a + b) else none

/-- One thread adds the terms of the nodes `us` to a sum that starts with 0. -/
def threadSum? (B : Int) (terms? : Nat → Option (List Int)) (us : List Nat) : Option Int :=
  us.foldlM (fun s u => (terms? u).bind fun ts => ts.foldlM (add? B) s) 0

/-- A sum over nodes with `tbb::enumerable_thread_specific` and `combine`: `parts` are the nodes of the threads. -/
def parallelSum? (B : Int) (terms? : Nat → Option (List Int)) (parts : List (List Nat)) : Option Int :=
  (parts.mapM (threadSum? B terms?)).bind fun sums => sums.foldlM (add? B) 0

/-- What the node `u` adds to the cut, MET 26-31: the weights of the edges to other blocks. -/
def cutTerms? (g : DGraph) (part : List Nat) (u : Nat) : Option (List Int) := do
  let b ← part[u]?
  let l ← g.adjacent? u
  let c ← l.mapM fun x => part[x.1]?.map fun b' => (b', x.2)
  return (c.filter fun x => b ≠ x.1).map (·.2)

/-- `local_edge_cut`, MET 20-36. -/
def localEdgeCut? (g : DGraph) (part : List Nat) (parts : List (List Nat)) : Option Int :=
  parallelSum? B64 (cutTerms? g part) parts

/-- `edge_cut`, MET 38-43, for `N` processes; `MPI_Allreduce` adds up the local values. -/
def edgeCut? (N : Nat) (g : Nat → DGraph) (part : Nat → List Nat) (parts : Nat → List (List Nat)) : Option Int :=
  ((List.range N).mapM fun p => localEdgeCut? (g p) (part p) (parts p)).bind fun cuts =>
    (cuts.foldlM (add? B64) 0).map fun c => c.tdiv 2

/-- The value that `compute_partition` returns, DK 369-375: `final_cut` is a 32-bit integer. -/
def returnedCut? (N : Nat) (g : Nat → DGraph) (part : Nat → List Nat) (parts : Nat → List (List Nat)) : Option Int :=
  (edgeCut? N g part parts).map narrow

/-- What the node `u` adds to the weight of block `b`, DPG 25-27; a block out of range is an access out of bounds. -/
def blockTerms? (g : DGraph) (part : List Nat) (k b u : Nat) : Option (List Int) := do
  let c ← part[u]?
  let w ← g.nodeWeight? u
  if c < k then return (if c = b then [w] else []) else none

/-- `init_block_weights`, DPG 20-42, for `N` processes.  The counters of different blocks do not influence each other: the sums
are computed block by block. -/
def blockWeights? (N : Nat) (g : Nat → DGraph) (part : Nat → List Nat) (k : Nat) (parts : Nat → List (List Nat)) : Option (List Int) :=
  (List.range k).mapM fun b =>
    ((List.range N).mapM fun p => parallelSum? B64 (blockTerms? (g p) (part p) k b) (parts p)).bind fun ws => ws.foldlM (add? B64) 0

/-- `num_imbalanced_blocks`, MET 67-79. -/
def numImbalancedBlocks (weights maxWeights : List Int) : Nat :=
  (List.range weights.length).foldl (fun c b => if weights.getD b 0 > maxWeights.getD b 0 then c + 1 else c) 0

/-- `is_feasible`, MET 63-65. -/
def isFeasible (weights maxWeights : List Int) : Bool := numImbalancedBlocks weights maxWeights == 0

/-- `imbalance_l1`, MET 94-102; the sum of doubles is exact below 2^53. -/
def imbalanceL1 (weights maxWeights : List Int) : Int :=
  (List.range weights.length).foldl (fun d b => if weights.getD b 0 > maxWeights.getD b 0 then
    d + max 0 (weights.getD b 0 - maxWeights.getD b 0) else d) 0

/-- The node weight of a process in `init_total_weights`, DCC 85-95: `parallel::accumulate` with a 32-bit sum over the nodes without
the ghost nodes.  For a graph without node weights it is `n()`, converted to 32 bits with a sign. -/
def localTotalWeight? (g : DGraph) (parts : List (List Nat)) : Option Int :=
  if g.nodeWeights = [] then some (narrow g.n) else parallelSum? B32 (fun u => g.nodeWeights[u]?.map fun w => [w]) parts

/-- `_global_total_node_weight`, DCC 103-104. -/
def globalTotalWeight? (N : Nat) (g : Nat → DGraph) (parts : Nat → List (List Nat)) : Option Int :=
  ((List.range N).mapM fun p => localTotalWeight? (g p) (parts p)).bind fun ws => ws.foldlM (add? B64) 0

end Verif.Dist
