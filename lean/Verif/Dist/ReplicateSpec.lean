import Verif.Dist.CutSpec
import Verif.Dist.Replicate

/-!
# Copies of a distributed graph
-/

namespace Verif.Dist

/-- The arrays of the processes hold their inputs: this is what the import creates (see `stored_exists`). -/
structure Stored (dist : List Nat) (inp : Nat → Input) (g : Nat → DGraph) : Prop where
  nodes : ∀ p, p < procs dist → (g p).nodes = (inp p).xadj
  edges : ∀ p, p < procs dist → (g p).edges.length = (inp p).adjncy.length
  edge_weights : ∀ p, p < procs dist → (g p).edgeWeights = (inp p).adjwgt
  node_weights : ∀ p, p < procs dist → ∃ rest, (g p).nodeWeights = (inp p).vwgt ++ rest ∧ ((inp p).vwgt = [] → rest = [])

/-- The number of edges, each counted in both directions. -/
def globalM (dist : List Nat) (inp : Nat → Input) : Nat := ((List.range (procs dist)).map fun p => (inp p).adjncy.length).sum

/-- The neighbours of the node `a` of a shared-memory graph, with the weights of the edges. -/
def Replica.neighbours (c : Replica) (a : Nat) : List (Nat × Int) :=
  (List.range' (c.nodes.getD a 0) (c.nodes.getD (a + 1) 0 - c.nodes.getD a 0)).map fun e =>
    (c.edges.getD e 0, if c.edgeWeights = [] then 1 else c.edgeWeights.getD e 0)

/-- The weight of the node `a` of a shared-memory graph. -/
def Replica.nodeWeight (c : Replica) (a : Nat) : Int := if c.nodeWeights = [] then 1 else c.nodeWeights.getD a 0

/-- The shared-memory graph is the whole distributed graph. -/
structure IsCopy (dist : List Nat) (inp : Nat → Input) (c : Replica) : Prop where
  n_eq : c.nodes.length = globalN dist + 1
  m_eq : c.edges.length = globalM dist inp
  /-- The ranges of the nodes in the array of the edges follow each other and cover it. -/
  zero : c.nodes.getD 0 0 = 0
  sorted : ∀ a, a < globalN dist → c.nodes.getD a 0 ≤ c.nodes.getD (a + 1) 0
  last : c.nodes.getD (globalN dist) 0 = globalM dist inp
  node_weights : c.nodeWeights = [] ∨ c.nodeWeights.length = globalN dist
  edge_weights : c.edgeWeights = [] ∨ c.edgeWeights.length = globalM dist inp
  /-- Each node has the neighbours and the weights that its owner passed. -/
  neighbours : ∀ p, p < procs dist → ∀ u, u < localN dist p → c.neighbours (first dist p + u) = (inp p).neighbours u
  weight : ∀ p, p < procs dist → ∀ u, u < localN dist p → c.nodeWeight (first dist p + u) = (inp p).nodeWeight u

/-- Each node is in one of the blocks of a parallel loop. -/
def Tiling (n : Nat) (blocks : List (Nat × Nat)) : Prop := (blocks.flatMap fun b => List.range' b.1 b.2).Perm (List.range n)

end Verif.Dist
