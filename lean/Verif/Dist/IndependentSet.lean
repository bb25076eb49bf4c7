import Verif.Dist.Model

/-!
# Model of the independent set of border nodes

Sources in `kaminpar-dist`: `algorithms/independent_set.cc` (IS), `datastructures/distributed_partitioned_graph.h` (DPG).

The score of a node is an arbitrary function `score` of its global ID with values in `0, …, max - 1`: the generator is seeded with the
global ID and with a number that is the same on all processes, IS 26-32.  `max` is the largest 64 bit integer.  The parallel loop over
the nodes visits them in an arbitrary order; the only shared writes are those of scores of ghost nodes, which are always the same.
`none` is an access outside of an array.
-/

namespace Verif.Dist

/-- `check_border_node`, DPG 196-206, which stops at the first such neighbour; `part` are the blocks of all local nodes. -/
def borderNode? (g : DGraph) (part : Nat → Nat) (u : Nat) : Option Bool :=
  (g.adjacent? u).map fun adj => adj.any fun x => decide (part x.1 ≠ part u)

/-- The first score of the node `u`, IS 42-54. -/
def firstScore? (g : DGraph) (part : Nat → Nat) (score : Nat → Int) (max : Int) (u : Nat) : Option Int :=
  if u < g.n then
    (borderNode? g part u).bind fun b => if b then (g.localToGlobal? u).map score else some max
  else some (-1)

/-- The visit of one neighbour, IS 66-79; `s.2` is `is_seed_node`.  The loop over the neighbours stops as soon as it is false. -/
def lookAt? (g : DGraph) (score : Nat → Int) (u : Nat) (s : (Nat → Int) × Bool) (v : Nat) : Option ((Nat → Int) × Bool) :=
  if s.2 then
    if s.1 v < 0 then (g.localToGlobal? v).map fun gv => (upd s.1 v (score gv), decide (s.1 u < score gv))
    else some (s.1, decide (s.1 u < s.1 v))
  else some s

/-- The visit of the node `u`, IS 60-84. -/
def visitBorder? (g : DGraph) (score : Nat → Int) (max : Int) (s : (Nat → Int) × List Nat) (u : Nat) : Option ((Nat → Int) × List Nat) :=
  if s.1 u = max then some s
  else (g.adjacent? u).bind fun adj =>
    ((adj.map (·.1)).foldlM (lookAt? g score u) (s.1, true)).map fun r => (r.1, if r.2 then s.2 ++ [u] else s.2)

/-- `find_independent_border_set`, IS 35-88; `order` is the order in which the nodes are visited. -/
def independentSet? (g : DGraph) (part : Nat → Nat) (score : Nat → Int) (max : Int) (order : List Nat) : Option (List Nat) :=
  ((List.range g.totalN).mapM (firstScore? g part score max)).bind fun l =>
    (order.foldlM (visitBorder? g score max) (fun u => l.getD u 0, [])).map (·.2)

end Verif.Dist
