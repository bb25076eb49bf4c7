import Verif.ClusterBalancer.Greedy
import Verif.ClusterBalancer.Spec

/-! # What is expected of the greedy builder -/

namespace Verif.ClusterBalancer
open Verif

/-- The input: blocks exist, node weights are not negative, the limit is positive, and the stopping policy does not stop an empty cluster. -/
structure Env.Valid (e : Env) : Prop where
  graph : Graph e.g
  blocks : ∀ v < e.g.n + e.g.ghosts, e.block v < e.g.k
  weights : ∀ v, 0 ≤ e.nw v
  limit : 0 < e.limit
  starts : ∀ id, e.stop id [] = false

/-- The node is marked as a node of cluster `c`, but it is not in the list of this cluster. -/
def LeftOut (S : Sets) (c u : Nat) : Prop := S.clusterOf u = some c ∧ u ∉ S.members.getD c []

end Verif.ClusterBalancer
