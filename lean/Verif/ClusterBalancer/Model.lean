import Verif.Util

/-!
# The clusters of the distributed cluster balancer

`kaminpar-dist/refinement/balancer/clusters.{h,cc}` (CH, CC) and `perform_moves` of `cluster_balancer.cc` (CB).  The balancer moves clusters of
nodes from overloaded blocks to other blocks.  For every cluster and every block it keeps the weight of the edges between them, and it updates
these weights when clusters of this process or ghost nodes move.

One process is modelled.  Nodes below `n` are owned, the next ones are ghost nodes.  Weights are unbounded integers.  `none` is an access outside
of an array or an empty cluster.  Priority queues, weight buckets and block weights are not part of this model.
-/

namespace Verif.ClusterBalancer
open Verif

/-- The graph of one process: `DistributedPartitionedGraph` with `n()`, `ghost_n()`, `k()` and `adjacent_nodes()`. -/
structure PGraph where
  n : Nat
  ghosts : Nat
  k : Nat
  adj : Nat → List (Nat × Int)

/-- The move sets: `members` are the slices of `_clusters` given by `_cluster_indices`, CH 91-98; `clusterOf` is `_node_to_cluster`, with `none`
for `kInvalidNodeID`. -/
structure Sets where
  members : List (List Nat)
  clusterOf : Nat → Option Nat

/-- One edge in the loop CC 98-104: the entry of `FastResetArray`, `fast_reset_array.h` 36-51, is remembered whenever it is accessed while it is
zero.  The state is the list of remembered entries and the array. -/
def touch (g : PGraph) (s : List Nat × (Nat → Int)) (x : Nat × Int) : List Nat × (Nat → Int) :=
  if x.1 < g.n then s
  else (if s.2 (x.1 - g.n) = 0 then s.1 ++ [x.1 - g.n] else s.1, upd s.2 (x.1 - g.n) (s.2 (x.1 - g.n) + x.2))

/-- `weight_to_ghost.entries()` after the edges of one cluster, CC 97-107; the array is zero at the start, CC 110. -/
def entries (g : PGraph) (nodes : List Nat) : List (Nat × Int) :=
  ((nodes.flatMap g.adj).foldl (touch g) ([], fun _ => 0)).1.map fun p =>
    (p, ((nodes.flatMap g.adj).foldl (touch g) ([], fun _ => 0)).2 p)

/-- `ghost_to_cluster` before it is sorted, CC 93-111: the ghost node, the weight and the cluster. -/
def ghostToCluster (g : PGraph) (members : List (List Nat)) : List (Nat × Int × Nat) :=
  members.zipIdx.flatMap fun m => (entries g m.1).map fun e => (e.1, e.2, m.2)

/-- The loop CC 124-126 and 129-131: the entries after `prev` up to `upto` get the size of `_ghost_node_edges`. -/
def fillIndices (ix : Nat → Nat) (prev upto size : Nat) : Nat → Nat :=
  (List.range' prev (upto - prev)).foldl (fun ix p => upd ix (p + 1) size) ix

/-- One iteration of the loop CC 122-128; the state is `prev_ghost`, `_ghost_node_indices` and `_ghost_node_edges`. -/
def adjacencyStep (s : Nat × (Nat → Nat) × List (Nat × Int)) (t : Nat × Int × Nat) : Nat × (Nat → Nat) × List (Nat × Int) :=
  (max s.1 t.1, fillIndices s.2.1 s.1 t.1 s.2.2.length, s.2.2 ++ [(t.2.2, t.2.1)])

/-- `init_ghost_node_adjacency`, CC 113-131, for the sorted list.  The indices are not initialized except for the first one: `junk`.  The edges
are resized to the length of the list before they are appended, CC 119 and 127; the entries that are created by `resize` are pairs
`(0, 0)`, because the constructor of `std::pair` sets both members to zero. -/
def adjacency (ghosts : Nat) (junk : Nat → Nat) (sorted : List (Nat × Int × Nat)) : (Nat → Nat) × List (Nat × Int) :=
  let s := sorted.foldl adjacencyStep (0, upd junk 0 0, List.replicate sorted.length (0, 0))
  (fillIndices s.2.1 s.1 ghosts s.2.2.length, s.2.2)

/-- The partition and `_cluster_conns`, in which the entry of cluster `c` and block `b` has the index `c * k + b`, CH 108-110. -/
structure St where
  block : Nat → Nat
  conns : Nat → Int

/-- The weight `w` is moved from one entry of the row of `c` to another, CH 143-144 and 174-175. -/
def shift (k : Nat) (conns : Nat → Int) (c src dst : Nat) (w : Int) : Nat → Int :=
  upd (upd conns (c * k + src) (conns (c * k + src) - w)) (c * k + dst)
    (upd conns (c * k + src) (conns (c * k + src) - w) (c * k + dst) + w)

/-- One edge in `move_cluster`, CH 163-176. -/
def moveEdge (g : PGraph) (S : Sets) (c src dst : Nat) (conns : Nat → Int) (x : Nat × Int) : Nat → Int :=
  if x.1 < g.n then
    match S.clusterOf x.1 with
    | none => conns
    | some d => if d = c then conns else shift g.k conns d src dst x.2
  else conns

/-- `move_cluster`, CH 159-178. -/
def moveCluster (g : PGraph) (S : Sets) (conns : Nat → Int) (c src dst : Nat) (nodes : List Nat) : Nat → Int :=
  (nodes.flatMap g.adj).foldl (moveEdge g S c src dst) conns

/-- One entry in `move_ghost_node`, CH 139-144. -/
def ghostEdge? (k : Nat) (edges : List (Nat × Int)) (src dst : Nat) (conns : Nat → Int) (e : Nat) : Option (Nat → Int) :=
  edges[e]?.map fun x => shift k conns x.1 src dst x.2

/-- `move_ghost_node`, CH 129-148. -/
def moveGhost? (k : Nat) (A : (Nat → Nat) × List (Nat × Int)) (conns : Nat → Int) (ghost src dst : Nat) : Option (Nat → Int) :=
  (List.range' (A.1 ghost) (A.1 (ghost + 1) - A.1 ghost)).foldlM (ghostEdge? k A.2 src dst) conns

/-- A move in `perform_moves`: a cluster of this process or a message about a ghost node. -/
inductive Op where
  | cluster (c dst : Nat)
  | ghost (v dst : Nat)

/-- One iteration of the loops of `perform_moves`, CB 714-757 and 773-779.  The source `candidate.from` is the block of the cluster, i.e. of its
first node, CH 112-114. -/
def step? (g : PGraph) (S : Sets) (A : (Nat → Nat) × List (Nat × Int)) (s : St) : Op → Option St
  | .cluster c dst => S.members[c]?.bind fun nodes => nodes.head?.map fun u =>
      ⟨nodes.foldl (fun b v => upd b v dst) s.block, moveCluster g S s.conns c (s.block u) dst nodes⟩
  | .ghost v dst => if g.n ≤ v ∧ v < g.n + g.ghosts then
      (moveGhost? g.k A s.conns (v - g.n) (s.block v) dst).map fun conns => ⟨upd s.block v dst, conns⟩ else none

/-- A sequence of moves. -/
def run? (g : PGraph) (S : Sets) (A : (Nat → Nat) × List (Nat × Int)) (s : St) (ops : List Op) : Option St :=
  ops.foldlM (step? g S A) s

/-- One block in `find_max_conn`, CH 187-193; the state is `max_conn` and `max_gainer`. -/
def maxConnStep (conn : Nat → Int) (own : Nat) (bw maxw : Nat → Int) (w : Int) (s : Int × Nat) (b : Nat) : Int × Nat :=
  if b ≠ own ∧ conn b > s.1 ∧ bw b + w ≤ maxw b then (conn b, b) else s

/-- `find_max_conn`, CH 180-199, without the assertions.  The start values are `std::numeric_limits<EdgeWeight>::min()` and `kInvalidBlockID`. -/
def findMaxConn (k : Nat) (conn : Nat → Int) (own : Nat) (bw maxw : Nat → Int) (w : Int) : Int × Nat :=
  (List.range k).foldl (maxConnStep conn own bw maxw w) (-2 ^ 31, 2 ^ 32 - 1)

/-- `find_max_gain`, CH 201-204: `none` if the result does not fit into 32 bits. -/
def findMaxGain? (k : Nat) (conn : Nat → Int) (own : Nat) (bw maxw : Nat → Int) (w : Int) : Option (Int × Nat) :=
  let r := findMaxConn k conn own bw maxw w
  if -2 ^ 31 ≤ r.1 - conn own ∧ r.1 - conn own < 2 ^ 31 then some (r.1 - conn own, r.2) else none

/-- One edge of a node in `build_singleton_clusters`, CC 483-488: the entry of the row of the current cluster. -/
def addConn (k : Nat) (block : Nat → Nat) (c : Nat) (conns : Nat → Int) (x : Nat × Int) : Nat → Int :=
  upd conns (c * k + block x.1) (conns (c * k + block x.1) + x.2)

/-- One node in `build_singleton_clusters`, CC 472-494.  The vector of the connections grows by `k` zeros for each cluster, CC 480-482; here the
rows are zero from the start. -/
def singletonStep (g : PGraph) (block : Nat → Nat) (over : Nat → Bool) (s : Sets × (Nat → Int)) (u : Nat) : Sets × (Nat → Int) :=
  if over (block u) = true then
    (⟨s.1.members ++ [[u]], upd s.1.clusterOf u (some s.1.members.length)⟩,
      (g.adj u).foldl (addConn g.k block s.1.members.length) s.2)
  else (⟨s.1.members, upd s.1.clusterOf u none⟩, s.2)

/-- `build_singleton_clusters`, CC 463-515; `over b` says whether the block is overloaded. -/
def singletons (g : PGraph) (block : Nat → Nat) (over : Nat → Bool) : Sets × (Nat → Int) :=
  (List.range g.n).foldl (singletonStep g block over) (⟨[], fun _ => none⟩, fun _ => 0)

end Verif.ClusterBalancer
