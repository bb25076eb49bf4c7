import Verif.Dist.Model

/-!
# Model of the replication of a distributed graph on all processes

Sources: `kaminpar-dist/graphutils/replicator.cc` (REP), `kaminpar-mpi/wrapper.h` (WRA).

The instance for `DistributedCSRGraph` is modelled.  Counts and displacements of MPI are 32-bit `int`s; a negative one, a count that
differs from the number of entries sent and an access out of bounds are `none`.
-/

namespace Verif.Dist

variable {α : Type}

/-- `build_distribution_recvcounts`, WRA 391-399. -/
def recvCount (dist : List Nat) (p : Nat) : Int := narrow ((dist.getD (p + 1) 0 : Int) - dist.getD p 0)

/-- `build_distribution_displs`, WRA 401-409. -/
def displ (dist : List Nat) (p : Nat) : Int := narrow (dist.getD p 0)

/-- The first `n` entries of an array, as the send buffer of a collective operation with the count `asserting_cast<int>(n)`. -/
def sendPrefix? (l : List α) (n : Nat) : Option (List α) := if n < 2 ^ 31 ∧ n ≤ l.length then some (l.take n) else none

/-- `MPI_Allgatherv` writes the entries of process `p` to a receive buffer with `size` entries. -/
def gatherStep? (size : Nat) (dist : List Nat) (send? : Nat → Option (List α)) (arr : Nat → α) (p : Nat) : Option (Nat → α) :=
  (send? p).bind fun l =>
    if 0 ≤ displ dist p ∧ (l.length : Int) = recvCount dist p ∧ (displ dist p).toNat + l.length ≤ size then
      some fun i => if (displ dist p).toNat ≤ i then l[i - (displ dist p).toNat]?.getD (arr i) else arr i
    else none

/-- `MPI_Allgatherv` with the counts and displacements of a distribution, REP 160-227; `z` is the initial value of the entries. -/
def allgather? (N size : Nat) (z : α) (dist : List Nat) (send? : Nat → Option (List α)) : Option (Nat → α) :=
  (List.range N).foldlM (gatherStep? size dist send?) fun _ => z

/-- The visit of the neighbours of one node, REP 135-138; `e` is the next edge and `m` the number of edges. -/
def remapFrom? (g : DGraph) (m : Nat) : List (Nat × Int) → Nat → (Nat → Nat) → Option (Nat → Nat)
  | [], _, arr => some arr
  | x :: l, e, arr =>
    (g.localToGlobal? x.1).bind fun v => if e < m then remapFrom? g m l (e + 1) (upd arr e (v % 2 ^ 32)) else none

/-- One iteration of the parallel loop over the nodes, REP 134-139. -/
def remapEdges? (g : DGraph) (arr : Nat → Nat) (u : Nat) : Option (Nat → Nat) :=
  g.nodes[u]?.bind fun e => (g.adjacent? u).bind fun l => remapFrom? g g.edges.length l e arr

/-- `remapped_edges`, REP 133-139; `order` is the order in which the nodes are visited. -/
def remapped? (g : DGraph) (order : List Nat) : Option (List Nat) :=
  (order.foldlM (remapEdges? g) fun _ => 0).map fun arr => (List.range g.edges.length).map arr

/-- The search for the owner of `u`, REP 234-237, with fuel. -/
def advance? (dist : List Nat) (u : Nat) : Nat → Nat → Option Nat
  | 0, _ => none
  | fuel + 1, pe => dist[pe + 1]?.bind fun d => if d ≤ u then advance? dist u fuel (pe + 1) else some pe

/-- One iteration of the inner loop, REP 233-239; the state is the array and `pe`. -/
def offsetNode? (dist edist : List Nat) (s : (Nat → Nat) × Nat) (u : Nat) : Option ((Nat → Nat) × Nat) :=
  (advance? dist u dist.length s.2).bind fun pe => edist[pe]?.map fun e => (upd s.1 u ((s.1 u + e) % 2 ^ 32), pe)

/-- One block of the parallel loop, REP 231-240: its first node and the number of its nodes.  Blocks share no entries of the array. -/
def offsetBlock? (dist edist : List Nat) (arr : Nat → Nat) (b : Nat × Nat) : Option (Nat → Nat) :=
  ((List.range' b.1 b.2).foldlM (offsetNode? dist edist) (arr, 0)).map (·.1)

/-- The shared-memory graph on one process. -/
structure Replica where
  nodes : List Nat
  edges : List Nat
  nodeWeights : List Int
  edgeWeights : List Int
deriving DecidableEq

/-- The distribution of the edges, see `edgeDistribution`. -/
def edgeDist (N : Nat) (g : Nat → DGraph) : List Nat := edgeDistribution ((List.range N).map fun p => (g p).edges.length)

/-- The array `nodes`, REP 142, 160-167 and 228-240. -/
def replicaNodes? (N : Nat) (g : Nat → DGraph) (dist : List Nat) (blocks : List (Nat × Nat)) (n m : Nat) : Option (List Nat) :=
  (allgather? N (n + 1) 0 dist fun p => sendPrefix? (g p).nodes (g p).n).bind fun arr =>
    (blocks.foldlM (offsetBlock? dist (edgeDist N g)) (upd arr n m)).map fun arr => (List.range (n + 1)).map arr

/-- The array `edges`, REP 143 and 168-175. -/
def replicaEdges? (N : Nat) (g : Nat → DGraph) (orders : Nat → List Nat) (m : Nat) : Option (List Nat) :=
  (allgather? N m 0 (edgeDist N g) fun p => (remapped? (g p) (orders p)).bind fun l => sendPrefix? l l.length).map fun arr =>
    (List.range m).map arr

/-- The array `node_weights`, REP 145-146, 150-151 and 176-201. -/
def replicaNodeWeights? (N : Nat) (g : Nat → DGraph) (dist : List Nat) (n : Nat) : Option (List Int) :=
  if (List.range N).any fun p => !(g p).nodeWeights.isEmpty then
    (allgather? N n 0 dist fun p => sendPrefix? (g p).nodeWeights (g p).n).map fun arr => (List.range n).map arr
  else some []

/-- The array `edge_weights`, REP 147-148, 152-153 and 202-227. -/
def replicaEdgeWeights? (N : Nat) (g : Nat → DGraph) (m : Nat) : Option (List Int) :=
  if (List.range N).any fun p => !(g p).edgeWeights.isEmpty then
    (allgather? N m 0 (edgeDist N g) fun p => sendPrefix? (g p).edgeWeights (g p).edges.length).map fun arr => (List.range m).map arr
  else some []

/-- The arrays for `n` nodes and `m` edges; the assertions REP 118-127 are part of every build. -/
def replicaArrays? (N : Nat) (g : Nat → DGraph) (dist : List Nat) (orders : Nat → List Nat) (blocks : List (Nat × Nat)) (n m : Nat) :
    Option Replica :=
  if n < 2 ^ 32 - 1 ∧ m < 2 ^ 32 - 1 then do
    let edges ← replicaEdges? N g orders m
    let nodeWeights ← replicaNodeWeights? N g dist n
    let edgeWeights ← replicaEdgeWeights? N g m
    let nodes ← replicaNodes? N g dist blocks n m
    return ⟨nodes, edges, nodeWeights, edgeWeights⟩
  else none

/-- `replicate_graph_everywhere` on process `me` of `N`, REP 115-245.  The processes visit their nodes in the orders `orders`, and
`me` cuts its last loop into the blocks `blocks`. -/
def replicate? (N : Nat) (g : Nat → DGraph) (orders : Nat → List Nat) (me : Nat) (blocks : List (Nat × Nat)) : Option Replica :=
  (g me).dist.getLast?.bind fun n => (edgeDist N g).getLast?.bind fun m => replicaArrays? N g (g me).dist orders blocks n m

end Verif.Dist
