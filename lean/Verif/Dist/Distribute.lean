import Verif.Dist.Replicate
import Verif.Dist.Cut
import Verif.Dist.Comm

/-!
# Model of the distribution of partitions of a replicated graph

Sources: `kaminpar-dist/graphutils/replicator.cc` (REP), `kaminpar-shm/metrics.h` (MTS).
-/

namespace Verif.Dist

/-- `edge_weight` of the shared-memory graph. -/
def Replica.edgeWeight? (c : Replica) (e : Nat) : Option Int := if c.edgeWeights = [] then some 1 else c.edgeWeights[e]?

/-- `adjacent_nodes` of the shared-memory graph. -/
def Replica.adjacent? (c : Replica) (u : Nat) : Option (List (Nat × Int)) := do
  let fr ← c.nodes[u]?
  let ub ← c.nodes[u + 1]?
  (List.range' fr (ub - fr)).mapM fun e => do
    let v ← c.edges[e]?
    let w ← c.edgeWeight? e
    return (v, w)

/-- What the node `u` adds to the cut, MTS 30-32. -/
def shmTerms? (c : Replica) (part : List Nat) (u : Nat) : Option (List Int) := do
  let b ← part[u]?
  let l ← c.adjacent? u
  l.mapM fun x => part[x.1]?.map fun b' => if b ≠ b' then x.2 else 0

/-- The assertions at the end of `edge_cut`, which are part of every build, MTS 38-39. -/
def halve? (s : Int) : Option Int := if s % 2 = 0 ∧ -B32 ≤ s.tdiv 2 ∧ s.tdiv 2 < B32 then some (s.tdiv 2) else none

/-- `shm::metrics::edge_cut`, MTS 23-40; `threads` are the nodes of the threads. -/
def shmCut? (c : Replica) (part : List Nat) (threads : List (List Nat)) : Option Int :=
  (parallelSum? B64 (shmTerms? c part) threads).bind halve?

/-- `MPI_Allreduce` with `MPI_MINLOC`, REP 591-600: the process with the smallest cut, the first one among several. -/
def minLoc (cuts : List Int) : Nat :=
  ((List.range cuts.length).foldl (fun (best : Int × Nat) p =>
    let c := cuts.getD p 0
    if c < best.1 ∨ (c = best.1 ∧ p < best.2) then (c, p) else best) (cuts.getD 0 0, 0)).2

/-- `MPI_Bcast` of the first `n` entries, REP 602-610, from `src` on the root to `dst`. -/
def bcast? (n : Nat) (src dst : List Nat) : Option (List Nat) :=
  if n < 2 ^ 31 ∧ n ≤ src.length ∧ n ≤ dst.length then some (src.take n ++ dst.drop n) else none

/-- The loop over all local nodes and ghost nodes, REP 612-616. -/
def pickBlocks? (g : DGraph) (partition : List Nat) : Option (List Nat) :=
  (List.range g.totalN).mapM fun u => (g.localToGlobal? u).bind fun v => partition[v]?

/-- `distribute_best_partition` for shared-memory partitions on process `me`, REP 577-620: process `p` has the copy `c p` of the graph
and its partition `parts p`. -/
def distributeBest? (N : Nat) (g : Nat → DGraph) (c : Nat → Replica) (parts : Nat → List Nat) (threads : Nat → List (List Nat)) (me : Nat) :
    Option (List Nat) := do
  let cuts ← (List.range N).mapM fun p => shmCut? (c p) (parts p) (threads p)
  let n ← (g me).dist.getLast?
  let partition ← bcast? n (parts (minLoc cuts)) (parts me)
  pickBlocks? (g me) partition

/-- The displacements of `distribute_partition`, REP 634-640: an exclusive prefix sum of 32-bit `int`s. -/
def scatterDispl (dist : List Nat) (p : Nat) : Int := ((List.range p).map (recvCount dist)).sum

/-- `MPI_Scatterv` from the array `global` of the root to process `p` with `n` nodes, REP 643-655.  The other entries of
`local_partition` are 0. -/
def scatter? (dist : List Nat) (global : List Nat) (p n : Nat) : Option (Nat → Nat) :=
  if 0 ≤ scatterDispl dist p ∧ scatterDispl dist p < B32 ∧ (n : Int) = recvCount dist p ∧
      (scatterDispl dist p).toNat + n ≤ global.length then
    some fun i => if i < n then global.getD ((scatterDispl dist p).toNat + i) 0 else 0
  else none

/-- `distribute_partition` on process `me`, REP 622-661. -/
def distributePartition? (N : Nat) (z : Nat × Nat) (g : Nat → DGraph) (ex : Nat → Execution) (shuffle : List (Nat × Nat) → List (Nat × Nat))
    (root : Nat) (global : List Nat) (me : Nat) : Option (List Nat) := do
  let vals ← (List.range N).mapM fun p => scatter? (g root).dist global p (g p).n
  let arr ← syncGhosts? N z g ex (fun p => vals.getD p fun _ => 0) (g me).totalN shuffle me
  return (List.range (g me).totalN).map arr

/-- The partition that `allgather_graph` collects, REP 87-107. -/
def gatherPartition? (N : Nat) (g : Nat → DGraph) (part : Nat → List Nat) (me : Nat) : Option (List Nat) := do
  let n ← (g me).dist.getLast?
  let arr ← allgather? N n 0 (g me).dist fun p => sendPrefix? (part p) (g p).n
  return (List.range n).map arr

end Verif.Dist
