import Verif.Math.Model
import Verif.Util
import Verif.Graph.Basic

/-!
# Model of the node permutation by buckets and of permuted graphs

Source: `kaminpar-shm/graphutils/permutator.h` (PH).  Counters never exceed the number of nodes or edges, so
integers do not overflow.
-/

namespace Verif.Permute
open Verif.Math

/-- The shared memory of the first pass: the entries of `permutation` and of the thread-local bucket counters
`local_buckets[row][bucket]`, PH 37-43. -/
inductive Cell
  | perm (u : Nat)
  | loc (row bucket : Nat)
deriving DecidableEq

/-- One iteration of the first pass, PH 52-53. -/
def count (bk : Nat → Nat) (cpu : Nat) (m : Cell → Nat) (u : Nat) : Cell → Nat :=
  let old := m (.loc (cpu + 1) (bk u))
  let m := upd m (.loc (cpu + 1) (bk u)) (old + 1)
  upd m (.perm u) old

/-- One call `(from, to, cpu)` of the first pass, PH 48-55. -/
def pass1 (bk : Nat → Nat) (m : Cell → Nat) (c : Nat × Nat × Nat) : Cell → Nat :=
  (List.range' c.1 (c.2.1 - c.1)).foldl (count bk c.2.2) m

/-- `global_buckets` before the prefix sum, PH 63-68. -/
def globalCounts (nb cpus : Nat) (loc : Nat → Nat → Nat) : Nat → Nat :=
  (List.range' 1 cpus).foldl (fun g id =>
    (List.range nb).foldl (fun g i => upd g (i + 1) (g (i + 1) + loc id i)) g) fun _ => 0

/-- `parallel::prefix_sum` in place on the first `size` entries, PH 69 and 199 (by C47 the parallel prefix sum
computes the same). -/
def prefixSum (size : Nat) (a : Nat → Nat) : Nat → Nat :=
  (List.range' 1 (size - 1)).foldl (fun a i => upd a i (a (i - 1) + a i)) a

/-- The prefix sums over the threads for one bucket `i`, PH 71-73. -/
def localPrefix (cpus : Nat) (loc : Nat → Nat → Nat) (i : Nat) : Nat → Nat :=
  (List.range (cpus - 1)).foldl (fun l id => upd l (id + 1) (l (id + 1) + l id)) fun row => loc row i

/-- One call `(from, to, cpu)` of the second pass, PH 80-87. -/
def pass2 (bk : Nat → Nat) (glob : Nat → Nat) (loc : Nat → Nat → Nat) (p : Nat → Nat) (c : Nat × Nat × Nat) :
    Nat → Nat :=
  (List.range' c.1 (c.2.1 - c.1)).foldl (fun p u => upd p u (p u + (glob (bk u) + loc c.2.2 (bk u)))) p

structure NodePermutations where
  oldToNew : Nat → Nat
  newToOld : Nat → Nat

/-- `compute_node_permutation_by_generic_buckets`, PH 28-96, for `maxConc` threads.  The calls of the two
parallel loops are executed in the orders `calls1`, `calls2`, and the loop over the nodes that computes the
inverse in the order `nodes`.  `garbage` are the initial values of the arrays that are not initialised. -/
def byBuckets (maxConc n nb : Nat) (bk : Nat → Nat) (garbage : Nat → Nat) (calls1 calls2 : List (Nat × Nat × Nat))
    (nodes : List Nat) : NodePermutations :=
  let cpus := min maxConc n
  let m0 : Cell → Nat := fun c => match c with
    | .perm u => garbage u
    | .loc _ _ => 0
  let m := calls1.foldl (pass1 bk) m0
  let loc : Nat → Nat → Nat := fun row i => m (.loc row i)
  let glob := prefixSum (nb + 1) (globalCounts nb cpus loc)
  let loc' : Nat → Nat → Nat := fun row i => localPrefix cpus loc i row
  let p := calls2.foldl (pass2 bk glob loc') fun u => m (.perm u)
  ⟨p, nodes.foldl (fun inv u => upd inv (p u) u) garbage⟩

/-- The bucket of a node of degree `deg`, PH 116-121, with `put_deg0_at_end`. -/
def bucketOf (putDeg0AtEnd : Bool) (deg : Nat) : Option Nat :=
  if deg = 0 then some (if putDeg0AtEnd then numDegreeBuckets - 1 else 0) else degreeBucket? deg

/-! ## Permuting the graph -/

/-- A CSR graph: `edges e` is the pair of the target and the weight of edge `e`.  (In the code these are two
arrays; they are always accessed at the same index, and the second is absent if the graph is unweighted.) -/
structure Csr where
  n : Nat
  nodes : Nat → Nat
  edges : Nat → Nat × Int
  w : Nat → Int

/-- What the graph interface shows of a CSR graph, `csr_graph.h:133-136, 170-211`. -/
def Csr.graph (g : Csr) : Graph :=
  { n := g.n, w := g.w
    adj := fun u => (List.range' (g.nodes u) (g.nodes (u + 1) - g.nodes u)).map g.edges }

/-- The loop over the edges of one node, PH 203-214, for the target mapping `f`. -/
def moveEdges (g : Csr) (f : Nat → Nat) (newToOld : Nat → Nat) (s : (Nat → Nat) × (Nat → Nat × Int)) (u : Nat) :
    (Nat → Nat) × (Nat → Nat × Int) :=
  (List.range' (g.nodes (newToOld u)) (g.nodes (newToOld u + 1) - g.nodes (newToOld u))).foldl (fun s e =>
    let p_e := s.1 u - 1
    (upd s.1 u p_e, upd s.2 p_e (f (g.edges e).1, (g.edges e).2))) s

/-- `build_permuted_graph`, PH 171-215.  The iterations of the two loops over the nodes are executed in the
orders `order1`, `order2`; `garbage`, `garbageE`, `garbageW` are the contents of the new arrays before. -/
def buildPermuted (ghosts : Bool) (g : Csr) (p : NodePermutations) (order1 order2 : List Nat)
    (garbage : Nat → Nat) (garbageE : Nat → Nat × Int) (garbageW : Nat → Int) : Csr :=
  let new := order1.foldl (fun (s : (Nat → Nat) × (Nat → Int)) u =>
    (upd s.1 u (g.nodes (p.newToOld u + 1) - g.nodes (p.newToOld u)), upd s.2 u (g.w (p.newToOld u))))
    (garbage, garbageW)
  let nodes := prefixSum (g.n + 1) new.1
  let nodes := upd nodes g.n (if g.n > 0 then nodes (g.n - 1) else 0)
  let f := fun v => if !ghosts || v < g.n then p.oldToNew v else v
  let r := order2.foldl (moveEdges g f p.newToOld) (nodes, garbageE)
  ⟨g.n, r.1, r.2, new.2⟩

end Verif.Permute
