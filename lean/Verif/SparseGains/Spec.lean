import Verif.SparseGains.Model
import Verif.CsrGraph.Model
import Verif.Gains.Spec

/-!
# Specification of the sparse gain cache

The connection of a node `u` to a block `b` of a partition `p` is `g.conn u fun v => p v = b`; `applyMoves`,
`ValidMoves` and `gainsSpec` are those of `Verif/Gains/Spec.lean`.
-/

namespace Verif.SparseGains
open Verif.CompactMap Verif.Math Verif.CsrGraph Verif.Gains

/-- The degree buckets of the graph are right and the nodes are sorted by bucket. -/
structure Sorted (n : Nat) (deg : Nat → Nat) (bsize : Nat → Nat) (nb : Nat) : Prop where
  mono : ∀ u v, u ≤ v → v < n → bucketIdx (deg u) ≤ bucketIdx (deg v)
  size : ∀ b, bsize b = (List.range n).countP fun u => bucketIdx (deg u) = b
  num : ∀ u, u < n → bucketIdx (deg u) < nb
  deg : ∀ u, u < n → deg u < 2 ^ 30

/-- Total weight of the edges of a node. -/
def wdegOf (g : Graph) (v : Nat) : Int := ((g.adj v).map Prod.snd).sum

/-- Every node is moved by one thread at a time: for every node, the steps for its edges are those of its moves, one
move after the other.  Steps for different nodes are interleaved in any way. -/
def Interleaved (g : Graph) (ms : List Move) (evs : List Step) : Prop :=
  ∀ u, evs.filter (fun e => e.u = u) = (ms.filter fun m => m.node = u).flatMap fun m => moveSteps g u m.from m.to

/-- The entries of a node: the first one and their number. -/
def region? (L : Layout) (u : Nat) : Option (Nat × Nat) :=
  if u < L.thr then indexDense? L u else some (indexSparse L u 0, L.k)

end Verif.SparseGains
