import Verif.Dist.Spec

/-!
# What the processes know together
-/

namespace Verif.Dist

/-- The number of processes. -/
def procs (dist : List Nat) : Nat := dist.length - 1

/-- Each process holds its part of one distributed graph. -/
structure World (dist : List Nat) (inp : Nat → Input) (g : Nat → DGraph) : Prop where
  some_process : 0 < procs dist
  valid : ∀ p, p < procs dist → Valid dist p (inp p)
  represents : ∀ p, p < procs dist → Represents dist p (inp p) (g p)

/-- `(a, b)` is an edge of the distributed graph: the owner of `a` has `b` among the neighbours of `a`. -/
def IsEdge (dist : List Nat) (inp : Nat → Input) (a b : Nat) : Prop :=
  ∃ p w, p < procs dist ∧ Owns dist p a ∧ (b, w) ∈ (inp p).neighbours (a - first dist p)

/-- The graph is undirected. -/
def Symmetric (dist : List Nat) (inp : Nat → Input) : Prop :=
  ∀ a b, IsEdge dist inp a b → IsEdge dist inp b a

/-- Some neighbour of the node `u` of a process with this input belongs to process `q`. -/
def touches (dist : List Nat) (inp : Input) (u q : Nat) : Bool :=
  (inp.neighbours u).any fun x => decide (first dist q ≤ x.1 ∧ x.1 < first dist (q + 1))

end Verif.Dist
