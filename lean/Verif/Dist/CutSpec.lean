import Verif.Dist.CommSpec
import Mathlib.Algebra.BigOperators.Group.List.Basic

/-!
# Partitions of a distributed graph
-/

namespace Verif.Dist

/-- The edges `(a, b, weight)` of the distributed graph, each in both directions. -/
def edges (dist : List Nat) (inp : Nat → Input) : List (Nat × Nat × Int) :=
  (List.range (procs dist)).flatMap fun p => (List.range (localN dist p)).flatMap fun u =>
    ((inp p).neighbours u).map fun x => (first dist p + u, x.1, x.2)

/-- The graph is undirected, and both directions of an edge have the same weight. -/
def Undirected (dist : List Nat) (inp : Nat → Input) : Prop :=
  ((edges dist inp).map fun e => (e.2.1, e.1, e.2.2)).Perm (edges dist inp)

/-- The weight of the edges between different blocks of the partition `P` of the nodes, each counted once. -/
def cut (dist : List Nat) (inp : Nat → Input) (P : Nat → Nat) : Int :=
  (((edges dist inp).filter fun e => decide (e.1 < e.2.1 ∧ P e.1 ≠ P e.2.1)).map (·.2.2)).sum

/-- The number of nodes. -/
def globalN (dist : List Nat) : Nat := first dist (procs dist)

/-- `W` is the weight of the nodes that the processes passed. -/
def HasWeights (dist : List Nat) (inp : Nat → Input) (W : Nat → Int) : Prop :=
  ∀ p, p < procs dist → ∀ u, u < localN dist p → W (first dist p + u) = (inp p).nodeWeight u

/-- The weight of block `b`. -/
def blockWeight (dist : List Nat) (W : Nat → Int) (P : Nat → Nat) (b : Nat) : Int :=
  (((List.range (globalN dist)).filter fun a => decide (P a = b)).map W).sum

/-- The processes know the partition `P`: each of them has the blocks of its nodes and of its ghost nodes. -/
def Knows (dist : List Nat) (g : Nat → DGraph) (part : Nat → List Nat) (P : Nat → Nat) : Prop :=
  ∀ p, p < procs dist → ∀ l v, (g p).localToGlobal? l = some v → (part p)[l]? = some (P v)

/-- Each node of each process is handled by one of its threads. -/
def Splits (dist : List Nat) (parts : Nat → List (List Nat)) : Prop :=
  ∀ p, p < procs dist → (parts p).flatten.Perm (List.range (localN dist p))

end Verif.Dist
