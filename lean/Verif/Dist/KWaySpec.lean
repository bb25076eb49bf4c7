import Verif.Dist.KWay
import Verif.Dist.GlobalLPProps
import Verif.Dist.BatchedLPProps
import Verif.Dist.ReplicateSpec

/-!
# What k-way multilevel partitioning expects of its parts
-/

namespace Verif.Dist

/-- A graph on `N` processes, with node weights `Wt`, that can be partitioned: undirected, without loops, with non-negative weights, and
small enough for 32-bit IDs and counts.  The edge weights, with both directions of an edge, add up to less than `2^31`.  Either no
process passes node weights or each process with a node does, and the same holds for edge weights. -/
structure PartitionInput (N : Nat) (dist : List Nat) (inp : Nat → Input) (g : Nat → DGraph) (Wt : Nat → Int) : Prop where
  processes : procs dist = N
  graph : LPInput dist inp g Wt
  stored : Stored dist inp g
  size : globalN dist + globalM dist inp < 2 ^ 31
  edgeTotal : ((edges dist inp).map (·.2.2)).sum < 2 ^ 31
  nodeTotal : ((List.range (globalN dist)).map Wt).sum < 2 ^ 63
  nodeWeights : (∀ p, p < procs dist → (inp p).vwgt = []) ∨ ∀ p, p < procs dist → (inp p).vwgt = [] → localN dist p = 0
  edgeWeights : (∀ p, p < procs dist → (inp p).adjwgt = []) ∨ ∀ p, p < procs dist → (inp p).adjwgt = [] → (inp p).adjncy = []

/-- A clusterer ends with a clustering that all processes know. -/
def ValidClusterer (N : Nat) (cl : ClustererFn) : Prop :=
  ∀ dist inp g Wt, PartitionInput N dist inp g Wt → ∃ lab C, cl g = some lab ∧ Clustered dist inp g lab C

/-- A refiner of a partition into `k` blocks ends with a partition into `k` blocks that all processes know, with its block weights.  If
`balanced` holds, it does not make a block heavier than its limit unless it was; if `improving` holds, it does not make the cut larger. -/
def SoundRefiner (N k : Nat) (limit : Nat → Int) (balanced improving : Prop) (r : RefinerFn) : Prop :=
  ∀ dist inp g Wt part weights P, PartitionInput N dist inp g Wt → Agree dist g Wt k part weights P → (∀ a, a < globalN dist → P a < k) →
    ∃ part' weights' P', r g part weights = some (part', weights') ∧ Agree dist g Wt k part' weights' P' ∧ (∀ a, a < globalN dist → P' a < k) ∧
      (balanced → ∀ b, b < k → blockWeight dist Wt P' b ≤ max (blockWeight dist Wt P b) (limit b)) ∧
      (improving → cut dist inp P' ≤ cut dist inp P)

/-- The sorting algorithms sort, and each thread does its part of each loop. -/
structure LevelRun.Ok (N : Nat) (run : LevelRun) : Prop where
  orders : ∀ p, p < N → (run.orders p).Ok
  ex : ∀ d, Executions d (fun _ => 0) (localN d) (run.ex d)
  shuffle : ∀ l, (run.shuffle l).Perm l

/-- The threads do all iterations of each loop, and the initial partitioner returns a partition into `k` blocks. -/
structure InitialRun.Ok (N k : Nat) (run : InitialRun) : Prop where
  orders : ∀ d p, p < procs d → (run.orders d p).Perm (List.range (localN d p))
  blocks : ∀ d p, p < procs d → Tiling (globalN d) (run.blocks d p)
  threads : ∀ d p, p < procs d → (run.threads d p).flatten.Perm (List.range (globalN d))
  splits : ∀ d, Splits d (run.splits d)
  partitioner : ∀ p c, p < N → (run.partitioner p c).length = c.nodes.length - 1 ∧ ∀ b, b ∈ run.partitioner p c → b < k

/-- The weight of block `b` of a partition of a shared-memory graph. -/
def Replica.blockWeight (c : Replica) (part : List Nat) (b : Nat) : Int :=
  (((List.range (c.nodes.length - 1)).filter fun a => decide (part.getD a 0 = b)).map c.nodeWeight).sum

end Verif.Dist
