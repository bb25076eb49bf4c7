import Verif.Subgraph.Model

/-!
# Specification of subgraph extraction and recursive bipartitioning
-/

namespace Verif.Subgraph

/-- All neighbours exist. -/
def LGraph.WF (g : LGraph) : Prop := ∀ r ∈ g, ∀ e ∈ r.2, e.1 < g.length

/-- All node and edge weights are positive. -/
def LGraph.Positive (g : LGraph) : Prop := ∀ r ∈ g, 1 ≤ r.1 ∧ ∀ e ∈ r.2, (1 : Int) ≤ e.2

instance (g : LGraph) : Decidable g.WF := by unfold LGraph.WF; infer_instance
instance (g : LGraph) : Decidable g.Positive := by unfold LGraph.Positive; infer_instance

/-- `sub` is the subgraph of `g` induced by the nodes of block `b`, where node `u` is called `mapping u` in
`sub`: the nodes of the block appear once each, with their weights, and the neighbourhood of a node consists of
its neighbours in the block, in the same order and with the same edge weights. -/
structure IsInduced (g : LGraph) (part : Nat → Nat) (b : Nat) (mapping : Nat → Nat) (sub : LGraph) : Prop where
  size : sub.length = ((List.range g.length).filter (part · = b)).length
  lt : ∀ u, u < g.length → part u = b → mapping u < sub.length
  inj : ∀ u v, u < g.length → v < g.length → part u = b → part v = b → mapping u = mapping v → u = v
  row : ∀ u, u < g.length → part u = b →
    sub[mapping u]? = some (g.w u, ((g.adj u).filter fun e => part e.1 = b).map fun e => (mapping e.1, e.2))

/-- The parallel loops process every node once, in any distribution and order; a node stores itself after it has
taken its position, and a block with `c` nodes is constructed in `c + 1` steps. -/
structure Sched.Ok (s : Sched) (n k : Nat) (part : Nat → Nat) : Prop where
  threads : s.threads.flatten.Perm (List.range n)
  steps : s.steps.Perm ((List.range n).map Step.take ++ (List.range n).map Step.store)
  causal : ∀ i u, s.steps[i]? = some (Step.store u) → Step.take u ∈ s.steps.take i
  construct : ∀ b, b < k → s.construct.count b = (List.range n).countP (part · = b) + 1
  blocks : ∀ b ∈ s.construct, b < k

/-- The number of nodes before `u` on the same side: the ID of `u` in the subgraph of its side if the nodes keep
their order. -/
def rank (part : Nat → Nat) (u : Nat) : Nat := (List.range u).countP (part · = part u)

/-- The subgraph of block `b` with nodes in the order of `g`. -/
def induced (g : LGraph) (part : Nat → Nat) (b : Nat) : LGraph :=
  ((List.range g.length).filter (part · = b)).map fun u =>
    (g.w u, ((g.adj u).filter fun e => part e.1 = b).map fun e => (rank part e.1, e.2))

/-- The label of node `u` after recursive bisection of `g`, a graph of block `b` of `k`, into `numSub` sub-blocks
with labels from `rel` on.  `bip g b k` is the bisection of `g`; its side 0 is bisected further into
`⌈numSub / 2⌉` sub-blocks, its side 1 into `⌊numSub / 2⌋`.  No memory is involved. -/
def label (bip : LGraph → Nat → Nat → Nat → Nat) : Nat → LGraph → Nat → Nat → Nat → Nat → Nat → Nat
  | 0, _, _, _, rel, _, _ => rel
  | fuel + 1, g, b, k, rel, numSub, u =>
    if numSub ≤ 1 then rel
    else if bip g b k u = 0 then
      label bip fuel (induced g (bip g b k) 0) (2 * b) (2 * k) rel ((numSub + 1) / 2) (rank (bip g b k) u)
    else
      label bip fuel (induced g (bip g b k) 1) (2 * b + 1) (2 * k) (rel + (numSub + 1) / 2) (numSub / 2)
        (rank (bip g b k) u)

/-- The sides that the bisections on the way to its final block assign to node `u`. -/
def path (bip : LGraph → Nat → Nat → Nat → Nat) : Nat → LGraph → Nat → Nat → Nat → Nat → List Nat
  | 0, _, _, _, _, _ => []
  | fuel + 1, g, b, k, numSub, u =>
    if numSub ≤ 1 then []
    else if bip g b k u = 0 then
      0 :: path bip fuel (induced g (bip g b k) 0) (2 * b) (2 * k) ((numSub + 1) / 2) (rank (bip g b k) u)
    else
      1 :: path bip fuel (induced g (bip g b k) 1) (2 * b + 1) (2 * k) (numSub / 2) (rank (bip g b k) u)

end Verif.Subgraph
