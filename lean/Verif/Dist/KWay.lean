import Verif.Dist.Distribute
import Verif.Dist.Contract
import Verif.Dist.BatchedLP
import Verif.Dist.GlobalLP

/-!
# Model of distributed k-way multilevel partitioning

Sources: `kaminpar-dist/partitioning/kway_multilevel.cc` (KWM), `kaminpar-dist/coarsening/global_cluster_coarsener.cc` (GCO),
`kaminpar-dist/refinement/multi_refiner.cc` (MRF), `kaminpar-dist/factories.cc` (FAC).

The steps are the functions of the models of the clustering, the contraction, the replication, the distribution of partitions and the
refinement.  A schedule of a step may depend on the graph of its level; it is a function of the distribution of the nodes of this graph.
The redistribution of coarse nodes changes labels before the contraction (see `finalLabels?`) and counts as a part of the clusterer.
Timers, statistics and assertions of debug builds are left out.
-/

namespace Verif.Dist

/-- A clusterer computes the labels of the nodes and ghost nodes of all processes, `Clusterer::cluster`. -/
abbrev ClustererFn := (Nat → DGraph) → Option (Nat → List Nat)

/-- A refiner changes the blocks of the nodes and ghost nodes and the block weights of all processes, `GlobalRefiner::refine`. -/
abbrev RefinerFn := (Nat → DGraph) → (Nat → Nat → Nat) → (Nat → Nat → Int) → Option ((Nat → Nat → Nat) × (Nat → Nat → Int))

/-- `global_n`, which all processes know. -/
def globalNodes (g : Nat → DGraph) : Nat := (g 0).dist.getLast?.getD 0

/-- What the threads and the network do during a contraction; `ex` depends on the distribution of the coarse nodes. -/
structure LevelRun where
  orders : Nat → Orders
  zero : Nat × Int
  ex : List Nat → Nat → Execution
  shuffle : List (Nat × Int) → List (Nat × Int)

/-- A level of the hierarchy: its graph, and the data with which partitions of the next coarser graph are projected to it. -/
structure FineLevel where
  g : Nat → DGraph
  lab : Nat → List Nat
  orders : Nat → Orders

/-- The clustering and the contraction, GCO 40-44. -/
def coarseGraph (N : Nat) (clusterer : ClustererFn) (run : LevelRun) (g : Nat → DGraph) : Option (FineLevel × (Nat → DGraph)) :=
  (clusterer g).bind fun lab => (coarseDist? run.orders N g lab).bind fun cdist =>
    (forAll? N (g 0) (contract? run.orders N g lab run.zero (run.ex cdist) run.shuffle)).map fun c => (⟨g, lab, run.orders⟩, c)

/-- `has_converged`, GCO 88-92.  The quotient of the two numbers is compared exactly instead of with doubles. -/
def hasConverged (before after : Nat) : Bool := decide (19 * before ≤ 20 * after)

/-- The coarsening, KWM 48-85 with GCO 35-60; `stack` is `_graph_hierarchy`, and the last level is its head.  With fuel. -/
def coarsening? (N threshold : Nat) (clusterer : Nat → ClustererFn) (run : Nat → LevelRun) :
    Nat → List FineLevel → (Nat → DGraph) → Option (List FineLevel × (Nat → DGraph))
  | 0, _, _ => none
  | fuel + 1, stack, g =>
    if globalNodes g ≤ threshold then some (stack, g)
    else (coarseGraph N (clusterer stack.length) (run stack.length) g).bind fun x =>
      if hasConverged (globalNodes g) (globalNodes x.2) = true then some (stack, g) else coarsening? N threshold clusterer run fuel (x.1 :: stack) x.2

/-- What the threads do during initial partitioning, and the partition that the initial partitioner finds on each process. -/
structure InitialRun where
  orders : List Nat → Nat → List Nat
  blocks : List Nat → Nat → List (Nat × Nat)
  partitioner : Nat → Replica → List Nat
  threads : List Nat → Nat → List (List Nat)
  splits : List Nat → Nat → List (List Nat)

/-- Initial partitioning, KWM 96-114: each process partitions a copy of the graph, the partition with the smallest cut is kept.  The
partitions of the threads, KWM 98-112, are a matter of the initial partitioner.  The block weights are computed by the constructor of
`DistributedPartitionedGraph`, see `blockWeights?`. -/
def initialPartition? (N k : Nat) (run : InitialRun) (g : Nat → DGraph) : Option ((Nat → Nat → Nat) × (Nat → Nat → Int)) :=
  let d := (g 0).dist
  (forAll? N ⟨[], [], [], []⟩ fun p => replicate? N g (run.orders d) p (run.blocks d p)).bind fun c =>
    (forAll? N [] (distributeBest? N g c (fun p => run.partitioner p (c p)) (run.threads d))).bind fun part =>
      (blockWeights? N g part k (run.splits d)).map fun w => (fun p l => (part p).getD l 0, fun _ b => w.getD b 0)

/-- `MultiRefiner::refine`, MRF 42-49: the refiners one after the other.  A single refiner is not wrapped, FAC 112-115. -/
def multiRefiner (rs : List RefinerFn) : RefinerFn := fun g part weights => rs.foldlM (fun s r => r g s.1 s.2) (part, weights)

/-- `GlobalClusterCoarsener::uncoarsen`, GCO 62-86: the block weights are those of the coarse graph. -/
def uncoarsen? (N : Nat) (L : FineLevel) (c : Nat → DGraph) (part : Nat → Nat → Nat) : Option (Nat → Nat → Nat) :=
  (forAll? N [] (project? L.orders N L.g L.lab c fun q => (List.range (c q).totalN).map (part q))).map fun f p l => (f p).getD l 0

/-- The uncoarsening, KWM 168-184; `refine` may depend on the level. -/
def uncoarsening? (N : Nat) (refine : Nat → RefinerFn) :
    List FineLevel → (Nat → DGraph) → (Nat → Nat → Nat) → (Nat → Nat → Int) → Option ((Nat → Nat → Nat) × (Nat → Nat → Int))
  | [], _, part, weights => some (part, weights)
  | L :: stack, c, part, weights =>
    (uncoarsen? N L c part).bind fun fine => (refine stack.length L.g fine weights).bind fun s =>
      uncoarsening? N refine stack L.g s.1 s.2

/-- `KWayMultilevelPartitioner::partition`, KWM 34-188. -/
def kwayMultilevel? (N k threshold : Nat) (refineCoarsest : Bool) (clusterer : Nat → ClustererFn) (run : Nat → LevelRun) (init : InitialRun)
    (refine : Nat → RefinerFn) (fuel : Nat) (g : Nat → DGraph) : Option ((Nat → Nat → Nat) × (Nat → Nat → Int)) :=
  (coarsening? N threshold clusterer run fuel [] g).bind fun h =>
    (initialPartition? N k init h.2).bind fun s =>
      (if refineCoarsest = true then refine h.1.length h.2 s.1 s.2 else some s).bind fun s =>
        uncoarsening? N refine h.1 h.2 s.1 s.2

/-- The distributed label propagation clustering as a clusterer, FAC 137-138; `sch` may depend on the graph. -/
def lpClusterer (N : Nat) (cfg : GCConfig) (sch : List Nat → Nat → Nat → GCSchedule) : ClustererFn := fun g =>
  (globalLP? N cfg g (sch (g 0).dist)).map fun r p => (List.range (g p).totalN).map (r p).cluster

/-- The label propagation refiner as a refiner, FAC 90-91. -/
def lpRefiner (N : Nat) (cfg : BatchConfig) (sch : List Nat → Nat → Nat → ChunkSchedule) : RefinerFn := fun g part weights =>
  (batchRefine? N cfg g (sch (g 0).dist) part weights).map fun s => (fun p => (s p).loc.part, fun p => (s p).loc.weights)

/-- `NoopRefiner`, FAC 87-88. -/
def noopRefiner : RefinerFn := fun _ part weights => some (part, weights)

end Verif.Dist
