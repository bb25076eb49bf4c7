import Verif.ClusterBalancer.Model

/-!
# Clusters of the label propagation

`build_local_clusters` of `kaminpar-dist/refinement/balancer/clusters.cc` (CC): a label propagation assigns a label to every owned node, and the
nodes of overloaded blocks with the same label become a cluster.

The labels are arbitrary numbers: the label propagation is not modelled.  Weights are unbounded integers.  `none` is the last entry of an empty
array.
-/

namespace Verif.ClusterBalancer
open Verif

/-- The graph, the partition, whether a block is overloaded, and `clustering`, CC 526-528. -/
structure LocalIn where
  g : PGraph
  block : Nat → Nat
  over : Nat → Bool
  label : Nat → Nat

/-- One node in the loop CC 532-539; the state is `cluster_to_move_set` and `cluster_sizes`. -/
def countStep (I : LocalIn) (s : (Nat → Nat) × (Nat → Nat)) (u : Nat) : (Nat → Nat) × (Nat → Nat) :=
  if I.over (I.block u) = true then (upd s.1 (I.label u) 1, upd s.2 (I.label u) (s.2 (I.label u) + 1)) else s

/-- The loop CC 530-539. -/
def counts (I : LocalIn) : (Nat → Nat) × (Nat → Nat) := (List.range I.g.n).foldl (countStep I) (fun _ => 0, fun _ => 0)

/-- `std::exclusive_scan` with start 0, CC 543. -/
def exclusive (f : Nat → Nat) (l : Nat) : Nat := ((List.range l).map f).sum

/-- `parallel::prefix_sum`, CC 540-542, which includes the entry itself. -/
def inclusive (f : Nat → Nat) (l : Nat) : Nat := ((List.range (l + 1)).map f).sum

/-- `_node_to_cluster`, `_clusters`, `_cluster_indices`, `cluster_sizes`, which holds the next position of each label, and `_cluster_conns`. -/
structure LocalSt where
  clusterOf : Nat → Option Nat
  arr : Nat → Nat
  idx : Nat → Nat
  pos : Nat → Nat
  conns : Nat → Int

/-- One edge of node `u` in the loop CC 559-565; `c` is `ms`. -/
def localConn (I : LocalIn) (u c : Nat) (conns : Nat → Int) (x : Nat × Int) : Nat → Int :=
  if ¬ x.1 < I.g.n ∨ I.label x.1 ≠ I.label u then addConn I.g.k I.block c conns x else conns

/-- One node in the loop CC 550-569; `ms` is `cluster_to_move_set`. -/
def localStep (I : LocalIn) (ms : Nat → Nat) (s : LocalSt) (u : Nat) : LocalSt :=
  if I.over (I.block u) = true then
    { clusterOf := upd s.clusterOf u (some (ms (I.label u) - 1))
      arr := upd s.arr (s.pos (I.label u)) u
      idx := upd s.idx (ms (I.label u) - 1 + 1) (s.pos (I.label u) + 1)
      pos := upd s.pos (I.label u) (s.pos (I.label u) + 1)
      conns := (I.g.adj u).foldl (localConn I u (ms (I.label u) - 1)) s.conns }
  else { s with clusterOf := upd s.clusterOf u none }

/-- The nodes of a cluster: a slice of `_clusters`, `clusters.h` 91-98. -/
def sliceOf (s : LocalSt) (c : Nat) : List Nat := (List.range' (s.idx c) (s.idx (c + 1) - s.idx c)).map s.arr

/-- The loop CC 550-569 after the initialization, CC 545-548; `arr`, `idx` and `clusterOf` are the earlier contents of the arrays. -/
def localLoop (I : LocalIn) (clusterOf : Nat → Option Nat) (arr idx : Nat → Nat) : LocalSt :=
  (List.range I.g.n).foldl (localStep I (inclusive (counts I).1)) ⟨clusterOf, arr, upd idx 0 0, exclusive (counts I).2, fun _ => 0⟩

/-- `build_local_clusters`, CC 517-590, with the number of clusters from CC 570. -/
def localClusters? (I : LocalIn) (clusterOf : Nat → Option Nat) (arr idx : Nat → Nat) : Option (Sets × (Nat → Int)) :=
  if I.g.n = 0 then none
  else some (⟨(List.range (inclusive (counts I).1 (I.g.n - 1))).map (sliceOf (localLoop I clusterOf arr idx)),
    (localLoop I clusterOf arr idx).clusterOf⟩, (localLoop I clusterOf arr idx).conns)

end Verif.ClusterBalancer
