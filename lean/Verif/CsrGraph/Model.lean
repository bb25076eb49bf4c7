import Verif.Math.Model
import Verif.Reduce.Model
import Verif.Graph.Basic

/-!
# Model of the CSR graph data structure

Sources: `kaminpar-shm/datastructures/csr_graph.h` (CH), `csr_graph.cc` (CC) and
`kaminpar-common/datastructures/static_array.h` (SA).  `CompressedGraph` contains the same code for node
weights, degree buckets and isolated nodes (`compressed_graph.cc:27-129`).  Sums of weights do not overflow.
-/

namespace Verif.CsrGraph
open Verif.Math Verif.Reduce

/-- `StaticArray`: the memory, `_size` and `_unrestricted_size`. -/
structure Arr (α : Type) where
  data : Nat → α
  size : Nat
  usize : Nat

/-- An array created with a size, SA 171-174: `resize` sets both sizes. -/
def Arr.owned {α : Type} (data : Nat → α) (size : Nat) : Arr α := ⟨data, size, size⟩

/-- An array over memory of the caller, SA 154-156: `_unrestricted_size` keeps its default 0. -/
def Arr.span {α : Type} (data : Nat → α) (size : Nat) : Arr α := ⟨data, size, 0⟩

/-- SA 290-298. -/
def Arr.restrict {α : Type} (a : Arr α) (newSize : Nat) : Arr α := ⟨a.data, newSize, a.size⟩

/-- SA 300-302. -/
def Arr.unrestrict {α : Type} (a : Arr α) : Arr α := ⟨a.data, a.usize, a.usize⟩

/-- The data members of `CSRGraph`.  `maxDegree` is `none` if the member was never initialised. -/
structure G where
  nodes : Arr Nat
  edges : Arr Nat
  nw : Arr Int
  ew : Arr Int
  totalNw : Int
  maxNw : Int
  totalEw : Int
  maxDegree : Option Nat
  sorted : Bool
  buckets : Nat → Nat
  numBuckets : Nat

/-- CH 77-79. -/
def G.n (g : G) : Nat := g.nodes.size - 1
/-- CH 81-83. -/
def G.m (g : G) : Nat := g.edges.size
/-- CH 89-91. -/
def G.isNodeWeighted (g : G) : Bool := (g.n : Int) ≠ g.totalNw
/-- CH 93-96. -/
def G.nodeWeight (g : G) (u : Nat) : Int := if g.isNodeWeighted then g.nw.data u else 1
/-- CH 108-110. -/
def G.isEdgeWeighted (g : G) : Bool := (g.m : Int) ≠ g.totalEw
/-- CH 112-115. -/
def G.edgeWeight (g : G) (e : Nat) : Int := if g.isEdgeWeighted then g.ew.data e else 1
/-- CH 146-148. -/
def G.degree (g : G) (u : Nat) : Nat := g.nodes.data (u + 1) - g.nodes.data u
/-- `adjacent_nodes` with edge weights, CH 170-211: the calls of the callback, in order. -/
def G.adjacentNodes (g : G) (u : Nat) : List (Nat × Int) :=
  (List.range' (g.nodes.data u) (g.nodes.data (u + 1) - g.nodes.data u)).map fun e =>
    (g.edges.data e, if g.isEdgeWeighted then g.ew.data e else 1)
/-- `adjacent_nodes` with a limit, CH 214-256. -/
def G.adjacentNodesUpTo (g : G) (u maxNum : Nat) : List (Nat × Int) :=
  let last := g.nodes.data u + min (g.degree u) maxNum
  (List.range' (g.nodes.data u) (last - g.nodes.data u)).map fun e =>
    (g.edges.data e, if g.isEdgeWeighted then g.ew.data e else 1)
/-- CH 380-382. -/
def G.bucketSize (g : G) (b : Nat) : Nat := g.buckets (b + 1) - g.buckets b
/-- CH 384-386. -/
def G.firstNodeInBucket (g : G) (b : Nat) : Nat := g.buckets b
/-- CH 388-390. -/
def G.firstInvalidNodeInBucket (g : G) (b : Nat) : Nat := g.firstNodeInBucket (b + 1)

/-- The graph shown through the interface. -/
def G.graph (g : G) : Graph := { n := g.n, w := g.nodeWeight, adj := g.adjacentNodes }

/-- Number of entries of `_buckets`, CC 64. -/
def bucketsSize : Nat := numDegreeBuckets + 1

/-- `degree_bucket`, `degree_buckets.h:23-25`. -/
def bucketIdx (deg : Nat) : Nat := (degreeBucket? deg).getD 0

/-- The counters of CC 190-202: thread-local counters are added up, so the schedule does not matter. -/
def countBuckets (n : Nat) (deg : Nat → Nat) : Nat → Nat :=
  (List.range n).foldl (fun b u => upd b (bucketIdx (deg u) + 1) (b (bucketIdx (deg u) + 1) + 1)) fun _ => 0

/-- CC 220-222: the index of the last entry that is positive; dereferencing past `rend()` if there is none. -/
def lastNonempty (b : Nat → Nat) : Nat → Option Nat
  | 0 => none
  | i + 1 => if b i > 0 then some i else lastNonempty b i

/-- `std::partial_sum` in place, CC 228. -/
def partialSum (size : Nat) (b : Nat → Nat) : Nat → Nat :=
  (List.range' 1 (size - 1)).foldl (fun b i => upd b i (b (i - 1) + b i)) b

/-- `init_degree_buckets`, CC 180-229: the buckets and their number. -/
def initDegreeBuckets (sorted : Bool) (n : Nat) (deg : Nat → Nat) : Option ((Nat → Nat) × Nat) :=
  if sorted then
    (lastNonempty (countBuckets n deg) bucketsSize).map fun num => (partialSum bucketsSize (countBuckets n deg), num)
  else some (partialSum bucketsSize (upd (fun _ => 0) 1 n), 1)

/-- How the parallel reductions of the constructor were executed. -/
structure Scheds where
  nw : Sched
  ew : Sched
  deg : Sched

/-- The parallel constructor, CC 52-82.  `lowest` is the smallest value of the weight type. -/
def build (lowest : Int) (nodes : Arr Nat) (edges : Arr Nat) (nw ew : Arr Int) (sorted : Bool) (s : Scheds) :
    Option G :=
  (initDegreeBuckets sorted (nodes.size - 1) fun u => nodes.data (u + 1) - nodes.data u).map fun b =>
       { nodes := nodes, edges := edges, nw := nw, ew := ew
         totalNw := if nw.size = 0 then ((nodes.size - 1 : Nat) : Int) else accumulate nw.data 0 s.nw
         maxNw := if nw.size = 0 then 1 else maxElement lowest nw.data s.nw
         totalEw := if ew.size = 0 then edges.size else accumulate ew.data 0 s.ew
         maxDegree := some (maxDifference nodes.data nodes.size s.deg)
         sorted := sorted, buckets := b.1, numBuckets := b.2 }

/-- `std::accumulate`, CC 104, 112, 126. -/
def seqSum (a : Arr Int) : Int := (List.range a.size).foldl (fun s i => s + a.data i) 0

/-- `*std::max_element`, CC 105 and 127, for a nonempty array. -/
def seqMax (a : Arr Int) : Int := (List.range' 1 (a.size - 1)).foldl (fun s i => max s (a.data i)) (a.data 0)

/-- The sequential constructor, CC 84-118: it does not initialise `_max_degree`. -/
def buildSeq (nodes : Arr Nat) (edges : Arr Nat) (nw ew : Arr Int) (sorted : Bool) : Option G :=
  (initDegreeBuckets sorted (nodes.size - 1) fun u => nodes.data (u + 1) - nodes.data u).map fun b =>
       { nodes := nodes, edges := edges, nw := nw, ew := ew
         totalNw := if nw.size = 0 then ((nodes.size - 1 : Nat) : Int) else seqSum nw
         maxNw := if nw.size = 0 then 1 else seqMax nw
         totalEw := if ew.size = 0 then edges.size else seqSum ew
         maxDegree := none
         sorted := sorted, buckets := b.1, numBuckets := b.2 }

/-- `update_total_node_weight`, CC 120-129. -/
def G.updateTotalNodeWeight (g : G) : G :=
  if g.nw.size = 0 then { g with totalNw := g.n, maxNw := 1 }
  else { g with totalNw := seqSum g.nw, maxNw := seqMax g.nw }

/-- `remove_isolated_nodes`, CC 131-155, for node IDs of `w` bits. -/
def G.removeIsolated (w : Nat) (g : G) (num : Nat) : G :=
  if num = 0 then g
  else
    let newN := g.n - num
    let g := { g with nodes := g.nodes.restrict (newN + 1) }
    let g := if g.nw.size ≠ 0 then { g with nw := g.nw.restrict newN } else g
    let g := g.updateTotalNodeWeight
    let g := { g with buckets := fun i => if 0 < i ∧ i < bucketsSize then subW w (g.buckets i) num else g.buckets i }
    if g.numBuckets = 1 then { g with numBuckets := 0 } else g

/-- `integrate_isolated_nodes`, CC 157-178: the graph afterwards and the number of isolated nodes. -/
def G.integrateIsolated (w : Nat) (g : G) : G × Nat :=
  let nonisolated := g.n
  let g := { g with nodes := g.nodes.unrestrict, nw := g.nw.unrestrict }
  let isolated := g.n - nonisolated
  let g := g.updateTotalNodeWeight
  let g := { g with buckets := fun i => if 0 < i ∧ i < bucketsSize then (g.buckets i + isolated) % 2 ^ w else g.buckets i }
  (if g.numBuckets = 0 then { g with numBuckets := 1 } else g, isolated)

/-- `count_isolated_nodes`, `permutator.cc:272-286` (the sum over threads does not depend on the schedule). -/
def G.countIsolated (g : G) : Nat := (List.range g.n).countP fun u => g.degree u = 0

end Verif.CsrGraph
