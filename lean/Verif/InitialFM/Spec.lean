import Verif.InitialFM.Model

/-!
# Specification for the 2-way FM refinement

The edge cut is `Graph.cut` (`Verif/Graph/Basic.lean`).
-/

namespace Verif.InitialFM
open Finset

/-- The total weight of the nodes in block `b`. -/
def blockW (g : Graph) (part : Nat → Nat) (b : Nat) : Int := ∑ u ∈ range g.n, if part u = b then g.w u else 0

/-- By how much the two blocks together exceed their limits. -/
def over (g : Graph) (maxW : Nat → Int) (part : Nat → Nat) : Int :=
  max 0 (blockW g part 0 - maxW 0) + max 0 (blockW g part 1 - maxW 1)

/-- A valid undirected graph without self-loops and negative edge weights. -/
structure Valid (g : Graph) : Prop where
  wf : g.WF
  symm : g.Symm
  noLoop : ∀ u, u < g.n → ∀ e ∈ g.adj u, e.1 ≠ u
  nonneg : ∀ u, u < g.n → ∀ e ∈ g.adj u, 0 ≤ e.2

/-- The node `u` moves to the other block. -/
def flip (part : Nat → Nat) (u : Nat) : Nat → Nat := fun v => if v = u then 1 - part v else part v

/-- Every node is in one of two blocks, and `bw` are the weights of the blocks. -/
structure Bipartition (g : Graph) (part : Nat → Nat) (bw : Nat → Int) : Prop where
  lt : ∀ u, u < g.n → part u < 2
  bw0 : bw 0 = blockW g part 0
  bw1 : bw 1 = blockW g part 1

/-- What the random number generators guarantee: they permute. -/
structure Oracle.Ok (n : Nat) (o : Oracle) : Prop where
  chunks : o.chunks.Perm (List.range (n / chunkSize + 1))
  perm : ∀ j, (o.perm j).Perm (List.range chunkSize)

end Verif.InitialFM
