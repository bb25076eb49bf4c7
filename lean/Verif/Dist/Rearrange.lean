import Verif.Dist.ColoredLP
import Verif.Permute.Model

/-!
# Model of the rearrangement of a distributed graph

Sources: `kaminpar-dist/graphutils/rearrangement.cc` (RA), `kaminpar-dist/dkaminpar.cc` (DK),
`kaminpar-shm/graphutils/permutator.h` (PH), `kaminpar-dist/datastructures/distributed_csr_graph.h` (DCG).

The local arrays are permuted by `build_permuted_graph`, which is the model of C22 with ghost nodes.
-/

namespace Verif.Dist
open Verif.Math Verif.Permute

/-- The local arrays of a process as `build_permuted_graph` sees them, RA 103-106.  An entry of an array that is absent is 0; it is not
used. -/
def csr (g : DGraph) : Csr :=
  ⟨g.n, fun u => g.nodes.getD u 0, fun e => (g.edges.getD e 0, g.edgeWeights.getD e 0), fun u => g.nodeWeights.getD u 0⟩

/-- The orders of the two parallel loops of `build_permuted_graph` and the contents of the new arrays before, RA 111-114. -/
structure PermuteRun where
  order1 : List Nat
  order2 : List Nat
  garbage : Nat → Nat
  garbageE : Nat → Nat × Int
  garbageW : Nat → Int

/-- The permuted arrays, RA 108-135.  The weights of the ghost nodes are copied; if there is no room for them, this is undefined. -/
def permuteArrays? (g : DGraph) (perm : NodePermutations) (r : PermuteRun) : Option DGraph :=
  let c := buildPermuted true (csr g) perm r.order1 r.order2 r.garbage r.garbageE r.garbageW
  if g.nodeWeights = [] ∨ g.totalN ≤ g.nodeWeights.length then
    some { g with
      nodes := (List.range g.nodes.length).map c.nodes
      edges := (List.range g.edges.length).map fun e => (c.edges e).1
      nodeWeights := (List.range g.nodeWeights.length).map fun u =>
        if g.n ≤ u ∧ u < g.totalN then g.nodeWeights.getD u 0 else c.w u
      edgeWeights := (List.range g.edgeWeights.length).map fun e => (c.edges e).2 }
  else none

/-- `new_ghost_to_global` and `new_global_to_ghost`, RA 153-154. -/
structure Labels where
  toGlobal : Nat → Nat
  toGhost : List (Nat × Nat)

/-- One message `(pe, old_node_local, new_node_local)` is handled, RA 156-165.  An unknown node is undefined behaviour; `insert` of the
hash table does nothing if the key is present. -/
def relabelGhost? (g : DGraph) (s : Labels) (msg : Nat × Nat × Nat) : Option Labels :=
  g.dist[msg.1]?.bind fun off =>
  (g.globalToGhost.lookup (off + msg.2.1 + 1)).bind fun l =>
    if g.n ≤ l ∧ l - g.n < g.ghostN then
      some { toGlobal := upd s.toGlobal (l - g.n) (off + msg.2.2)
             toGhost := if (s.toGhost.lookup (off + msg.2.2 + 1)).isSome then s.toGhost else (off + msg.2.2 + 1, l) :: s.toGhost }
    else none

/-- `rearrange_by_permutation` on process `me`, RA 95-178.  `g p` and `perm p` are the graph and the permutation of process `p`.  The
received messages are handled by a parallel loop, in the order that `shuffle` returns. -/
def rearranged? (N : Nat) (z : Nat × Nat) (g : Nat → DGraph) (perm : Nat → NodePermutations) (runs : Nat → PermuteRun)
    (ex : Nat → Execution) (shuffle : List (Nat × Nat × Nat) → List (Nat × Nat × Nat)) (me : Nat) : Option DGraph :=
  (permuteArrays? (g me) (perm me) (runs me)).bind fun a =>
  (exchange? N z (fun p => sendBuffers? (ex p).threads N (toPeMessages? (g p) (fun _ => true) fun u _ => (u, (perm p).oldToNew u))
    (ex p).count (ex p).fill) me).bind fun calls =>
  ((shuffle (calls.flatMap fun c => c.2.map fun m => (c.1, m))).foldlM (relabelGhost? (g me))
    ⟨fun i => (g me).ghostToGlobal.getD i 0, []⟩).map fun s =>
    { a with ghostToGlobal := (List.range (g me).ghostN).map s.toGlobal, globalToGhost := s.toGhost }

/-- The permutation of `rearrange_by_degree_buckets` on one process, RA 42-52 and PH 134-145, for `maxConc` threads; nodes without
neighbours come first. -/
def degreePermutation (maxConc : Nat) (g : DGraph) (garbage : Nat → Nat) (calls1 calls2 : List (Nat × Nat × Nat)) (order : List Nat) :
    NodePermutations :=
  byBuckets maxConc g.n numDegreeBuckets (fun u => (bucketOf false (g.nodes.getD (u + 1) 0 - g.nodes.getD u 0)).getD 0) garbage
    calls1 calls2 order

/-- One iteration of the loop that sorts the nodes by colours, RA 78-83; the state are `color_sizes`, `new_to_old` and `old_to_new`. -/
def sortNode? (n C : Nat) (col : Nat → Nat) (s : (Nat → Nat) × (Nat → Nat) × (Nat → Nat)) (u : Nat) :
    Option ((Nat → Nat) × (Nat → Nat) × (Nat → Nat)) :=
  (placeNode? n C col (s.1, s.2.1) u).map fun r => (r.1, r.2, upd s.2.2 u (s.1 (col u) - 1))

/-- The permutation of one process for `C` colours, RA 62-84: `color_sizes` are the inclusive prefix sums of the numbers of nodes with
each colour. -/
def colorPermutation? (n C : Nat) (col : Nat → Nat) (order : List Nat) : Option NodePermutations :=
  (order.foldlM (sortNode? n C col) (colorSums n col, fun _ => 0, fun _ => 0)).map fun s => ⟨s.2.2, s.2.1⟩

/-- The permutations of `rearrange_by_coloring` on all processes, RA 54-84, for the colours `col p` that
`compute_node_coloring_sequentially` returned on process `p`.  The maximum over no colours, RA 59, is undefined. -/
def colorPermutations? (N : Nat) (g : Nat → DGraph) (col : Nat → Nat → Nat) (order : Nat → List Nat) :
    Option (Nat → NodePermutations) :=
  ((List.range N).mapM fun p => localColors? (g p).totalN (col p)).bind fun l =>
  forAll? N ⟨fun _ => 0, fun _ => 0⟩ fun p => colorPermutation? (g p).n (l.foldl max 0) (col p) (order p)

/-- The copy of the blocks to the array of the caller on one process, DK 347-356: `part` are the blocks of the nodes of the rearranged
graph. -/
def copyBack? (n : Nat) (perm : NodePermutations) (part : List Nat) : Option (List Nat) :=
  (List.range n).mapM fun u => part[perm.oldToNew u]?

end Verif.Dist
