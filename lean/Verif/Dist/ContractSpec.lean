import Verif.Dist.Contract
import Verif.Dist.CutSpec
import Verif.Dist.ReplicateSpec

/-!
# The contraction of a clustering: what the coarse graph should be
-/

namespace Verif.Dist

/-- The sorting algorithms sort, each element of a loop is in exactly one block, and other orders are orders of the same entries. -/
structure Orders.Ok (S : Orders) : Prop where
  nodes : ∀ l, (S.sortNodes l).Perm l ∧ (S.sortNodes l).Pairwise fun a b => a.1 ≤ b.1
  pairs : ∀ l, (S.sortPairs l).Perm l ∧ (S.sortPairs l).Pairwise fun a b => a.1 < b.1 ∨ a.1 = b.1 ∧ a.2.1 ≤ b.2.1
  sources : ∀ l, (S.sortSources l).Perm l ∧ (S.sortSources l).Pairwise fun a b => a.1 ≤ b.1
  blocks : ∀ m, ((S.blocks m).flatMap fun b => List.range' b.1 b.2).Perm (List.range m)
  targets : ∀ l, (S.targets l).Perm l
  table : ∀ l, (S.table l).Perm l
  bucket : ∀ i l, (S.bucket i l).Perm l
  entries : ∀ i l, (S.entries i l).Perm l

/-- A distributed graph with a cluster `C a` for each node `a`: a cluster is named by the ID of some node, and each process knows the
clusters of its nodes and ghost nodes.  The numbers of all nodes, with ghost nodes, and of all edges fit into an `int`. -/
structure Clustered (dist : List Nat) (inp : Nat → Input) (g : Nat → DGraph) (lab : Nat → List Nat) (C : Nat → Nat) : Prop where
  world : World dist inp g
  labels : ∀ a, a < globalN dist → C a < globalN dist
  knows : Knows dist g lab C
  nodes : ((List.range (procs dist)).map fun p => (g p).totalN).sum < 2 ^ 31
  edges : globalM dist inp < 2 ^ 31

/-- `f` numbers the clusters that have nodes: `0, 1, …, globalN cdist - 1`.  The process that owns the name of a cluster owns its coarse
node. -/
structure Numbers (dist : List Nat) (C : Nat → Nat) (cdist : List Nat) (f : Nat → Nat) : Prop where
  procs_eq : procs cdist = procs dist
  range : ∀ a, a < globalN dist → f (C a) < globalN cdist
  injective : ∀ a b, a < globalN dist → b < globalN dist → f (C a) = f (C b) → C a = C b
  surjective : ∀ x, x < globalN cdist → ∃ a, a < globalN dist ∧ f (C a) = x
  owner : ∀ a q, a < globalN dist → q < procs dist → (Owns dist q (C a) ↔ Owns cdist q (f (C a)))

/-- The edges between two blocks of a partition `P`. -/
def between (dist : List Nat) (inp : Nat → Input) (P : Nat → Nat) (x y : Nat) : List (Nat × Nat × Int) :=
  (edges dist inp).filter fun e => decide (P e.1 = x ∧ P e.2.1 = y)

/-- The graph `cinp` is the quotient of the graph `inp` with node weights `Wt` by the partition `P`: nodes are blocks, the weight of a
node is the weight of the block, and the weight of an edge is the weight of all edges between the blocks.  There are neither loops nor
parallel edges. -/
structure Quotient (dist : List Nat) (inp : Nat → Input) (Wt : Nat → Int) (P : Nat → Nat) (cdist : List Nat) (cinp : Nat → Input) : Prop where
  weights : ∀ q u, q < procs cdist → u < localN cdist q → (cinp q).nodeWeight u = blockWeight dist Wt P (first cdist q + u)
  once : ∀ q u, q < procs cdist → u < localN cdist q → (((cinp q).neighbours u).map (·.1)).Nodup
  edges : ∀ q u y w, q < procs cdist → u < localN cdist q → ((y, w) ∈ (cinp q).neighbours u ↔
    y ≠ first cdist q + u ∧ between dist inp P (first cdist q + u) y ≠ [] ∧ w = ((between dist inp P (first cdist q + u) y).map (·.2.2)).sum)

end Verif.Dist
