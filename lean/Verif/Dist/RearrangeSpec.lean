import Verif.Dist.Rearrange
import Verif.Dist.CutSpec
import Verif.Dist.ReplicateSpec

/-!
# New numbers of the nodes of a distributed graph
-/

namespace Verif.Dist
open Verif.Permute

/-- Each process permutes its nodes, and the two arrays of a permutation are inverse to each other. -/
def Permutations (dist : List Nat) (perm : Nat → NodePermutations) : Prop :=
  ∀ p, p < procs dist → ∀ u, u < localN dist p → (perm p).oldToNew u < localN dist p ∧ (perm p).newToOld ((perm p).oldToNew u) = u

/-- `ρ` maps the global ID of each node to its new global ID. -/
def Renames (dist : List Nat) (perm : Nat → NodePermutations) (ρ : Nat → Nat) : Prop :=
  ∀ p, p < procs dist → ∀ u, u < localN dist p → ρ (first dist p + u) = first dist p + (perm p).oldToNew u

/-- `inp'` is the graph `inp` with the new numbers `ρ` of the nodes: each node has the same neighbours, edge weights and weight. -/
structure Renumbered (dist : List Nat) (perm : Nat → NodePermutations) (ρ : Nat → Nat) (inp inp' : Nat → Input) : Prop where
  neighbours : ∀ p, p < procs dist → ∀ u, u < localN dist p →
    ((inp' p).neighbours ((perm p).oldToNew u)).Perm (((inp p).neighbours u).map fun x => (ρ x.1, x.2))
  weight : ∀ p, p < procs dist → ∀ u, u < localN dist p → (inp' p).nodeWeight ((perm p).oldToNew u) = (inp p).nodeWeight u

/-- The threads of all processes execute each iteration of the loops once. -/
def Runs (dist : List Nat) (runs : Nat → PermuteRun) : Prop :=
  ∀ p, p < procs dist → (runs p).order1.Perm (List.range (localN dist p)) ∧ (runs p).order2.Perm (List.range (localN dist p))

end Verif.Dist
