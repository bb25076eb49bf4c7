import Verif.ClusterBalancer.Model

/-! # What is expected of the clusters of the cluster balancer -/

namespace Verif.ClusterBalancer
open Verif

/-- The weight of the edges between two nodes, as seen by the first. -/
def between (g : PGraph) (u v : Nat) : Int := ((g.adj u).map fun x => if x.1 = v then x.2 else 0).sum

/-- The weight of the edges from the nodes of a list to the nodes of block `b` that are not in the list. -/
def connTo (g : PGraph) (block : Nat → Nat) (nodes : List Nat) (b : Nat) : Int :=
  ((nodes.flatMap g.adj).map fun x => if x.1 ∉ nodes ∧ block x.1 = b then x.2 else 0).sum

/-- The weight of the edges from the nodes of a list to nodes of other blocks. -/
def cutOf (g : PGraph) (block : Nat → Nat) (nodes : List Nat) : Int :=
  (nodes.map fun u => ((g.adj u).map fun x => if block x.1 ≠ block u then x.2 else 0).sum).sum

/-- The graph: every edge has a positive weight and leads to a known node, both directions of an edge between owned nodes have the same weight. -/
structure Graph (g : PGraph) : Prop where
  known : ∀ u < g.n, ∀ x ∈ g.adj u, x.1 < g.n + g.ghosts
  pos : ∀ u < g.n, ∀ x ∈ g.adj u, 0 < x.2
  symm : ∀ u < g.n, ∀ v < g.n, between g u v = between g v u

/-- The clusters: not empty, without duplicates, and `clusterOf` says in which cluster a node is. -/
structure Clustering (g : PGraph) (S : Sets) : Prop where
  nonempty : ∀ (c : Nat) l, S.members[c]? = some l → l ≠ []
  nodup : ∀ (c : Nat) l, S.members[c]? = some l → l.Nodup
  owned : ∀ (c : Nat) l, S.members[c]? = some l → ∀ u ∈ l, u < g.n
  of : ∀ (c : Nat) l, S.members[c]? = some l → ∀ u < g.n, (S.clusterOf u = some c ↔ u ∈ l)
  named : ∀ u < g.n, ∀ c, S.clusterOf u = some c → c < S.members.length

/-- The partition: every block exists, and all nodes of a cluster are in the same block. -/
structure Blocks (g : PGraph) (S : Sets) (block : Nat → Nat) : Prop where
  lt : ∀ v < g.n + g.ghosts, block v < g.k
  same : ∀ (c : Nat) l, S.members[c]? = some l → ∀ u ∈ l, ∀ v ∈ l, block u = block v

/-- The connections that are kept are the actual ones. -/
def Exact (g : PGraph) (S : Sets) (s : St) : Prop :=
  ∀ (c : Nat) l, S.members[c]? = some l → ∀ b < g.k, s.conns (c * g.k + b) = connTo g s.block l b

/-- The result of `std::sort`: a permutation in the order of the ghost nodes. -/
def SortedOf (l s : List (Nat × Int × Nat)) : Prop := s.Perm l ∧ s.Pairwise fun a b => a.1 ≤ b.1

/-- The move is possible: the cluster or the ghost node and the block exist. -/
def Op.Valid (g : PGraph) (S : Sets) : Op → Prop
  | .cluster c dst => c < S.members.length ∧ dst < g.k
  | .ghost v dst => g.n ≤ v ∧ v < g.n + g.ghosts ∧ dst < g.k

/-- The block of a node after some moves: the target of the last move of the node or of its cluster. -/
def blockAfter (S : Sets) (block : Nat → Nat) (ops : List Op) (v : Nat) : Nat :=
  ops.foldl (fun b o => match o with
    | .cluster c dst => if v ∈ S.members.getD c [] then dst else b
    | .ghost u dst => if v = u then dst else b) (block v)

end Verif.ClusterBalancer
