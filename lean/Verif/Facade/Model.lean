import Verif.CsrGraph.Model
import Verif.Permute.Model
import Verif.Isolated.Model
import Verif.Metrics.Model

/-!
# Model of the library interface `KaMinPar`

Source: `kaminpar-shm/kaminpar.cc` (KC), `kaminpar-shm/graphutils/permutator.cc` (PC).  Only uncompressed graphs.
The multilevel partitioner itself is an arbitrary function from the graph it is given to a partition.
-/

namespace Verif.Facade
open Verif.Math Verif.CsrGraph Verif.Permute Verif.Isolated Verif.Metrics Verif.Reduce

/-- The object `KaMinPar`: the graph, its permutation (`none` if it is empty, `csr_graph.h:355-357`) and
`_was_rearranged`. -/
structure State where
  g : G
  perm : Option (Nat → Nat)
  rearranged : Bool

/-- The options, KC 337-351. -/
structure Opts where
  degreeBuckets : Bool
  reorderEdges : Bool

/-- Everything that depends on the schedule or on uninitialised memory. -/
structure Run where
  maxConc : Nat
  calls1 : List (Nat × Nat × Nat)
  calls2 : List (Nat × Nat × Nat)
  order0 : List Nat
  order1 : List Nat
  order2 : List Nat
  garbage : Nat → Nat
  garbageE : Nat → Nat × Int
  garbageW : Nat → Int
  scheds : Scheds
  outOrder : List Nat
  threads : Nat
  chunks : List (Nat × List Nat)

/-- `copy_graph`, KC 234-271 (the parallel copies write disjoint entries). -/
def copyGraph (lowest : Int) (n : Nat) (xadj adjncy : Nat → Nat) (vwgt adjwgt : Arr Int) (s : Scheds) : Option State :=
  (build lowest (.owned xadj (n + 1)) (.owned adjncy (xadj n)) (.owned vwgt.data vwgt.size) (.owned adjwgt.data adjwgt.size)
    false s).map fun g => ⟨g, none, false⟩

/-- `borrow_and_mutate_graph`, KC 208-232. -/
def borrowGraph (lowest : Int) (n : Nat) (xadj adjncy : Nat → Nat) (vwgt adjwgt : Arr Int) (s : Scheds) : Option State :=
  (build lowest (.span xadj (n + 1)) (.span adjncy (xadj n))
    (if vwgt.size = 0 then .owned vwgt.data 0 else .span vwgt.data vwgt.size)
    (if adjwgt.size = 0 then .owned adjwgt.data 0 else .span adjwgt.data adjwgt.size) false s).map
    fun g => ⟨g, none, false⟩

/-- `rearrange_by_degree_buckets` and `rearrange_graph`, PC 21-96. -/
def rearrange (lowest : Int) (r : Run) (s : State) : Option State :=
  let c : Csr := ⟨s.g.n, s.g.nodes.data, fun e => (s.g.edges.data e, s.g.ew.data e), s.g.nw.data⟩
  let p := byBuckets r.maxConc s.g.n numDegreeBuckets (fun u => (bucketOf true (s.g.degree u)).getD 0) r.garbage
    r.calls1 r.calls2 r.order0
  let c' := buildPermuted false c p r.order1 r.order2 r.garbage r.garbageE r.garbageW
  (build lowest (.owned c'.nodes s.g.nodes.size) (.owned (fun e => (c'.edges e).1) s.g.edges.size)
    (.owned c'.w s.g.nw.size) (.owned (fun e => (c'.edges e).2) s.g.ew.size) true r.scheds).map
    fun g => ⟨g, some p.oldToNew, s.rearranged⟩

/-- `reorder_edges_by_compression`, PC 220-239: overwrites the edges and, if the graph is edge-weighted, the edge
weights; `newEdges` are the contents afterwards (modelled in `Verif/Reorder`, see C48). -/
def reorder (newEdges : G → Nat → Nat × Int) (s : State) : State :=
  { s with g :=
    { s.g with
      edges := { s.g.edges with data := fun e => (newEdges s.g e).1 }
      ew := if s.g.isEdgeWeighted then { s.g.ew with data := fun e => (newEdges s.g e).2 } else s.g.ew } }

/-- The preprocessing, KC 336-354. -/
def preprocess (lowest : Int) (o : Opts) (newEdges : G → Nat → Nat × Int) (r : Run) (s : State) : Option State :=
  if s.rearranged then some s
  else
    (if o.degreeBuckets && !s.g.sorted then rearrange lowest r s else some s).map fun s =>
      { (if o.reorderEdges then reorder newEdges s else s) with rearranged := true }

/-- The weights of the blocks of the partition returned by the partitioner (C17). -/
def blockWeights (g : G) (part : Nat → Nat) (b : Nat) : Int :=
  ((List.range g.n).map fun u => if part u = b then g.nodeWeight u else 0).sum

/-- KC 400-419: the output array (over its old contents `out`) and the returned cut. -/
def finish (r : Run) (s : State) (part : Nat → Nat) (out : Nat → Nat) : (Nat → Nat) × Option Int :=
  (r.outOrder.foldl (fun out u => upd out u (part (match s.perm with
      | none => u
      | some p => p u))) out,
    edgeCutPar s.g.graph part r.threads r.chunks)

/-- `compute_partition`, KC 314-421, for `k` blocks with limits `mx`.  `none`: undefined behaviour.  The result is the
new state, the output array and the returned value. -/
def compute (lowest : Int) (o : Opts) (newEdges : G → Nat → Nat × Int) (k : Nat) (mx : Nat → Int)
    (partitioner : G → Nat → Nat) (r : Run) (out : Nat → Nat) (s : State) :
    Option (State × (Nat → Nat) × Option Int) :=
  (preprocess lowest o newEdges r s).map fun s =>
    if s.g.sorted then
      let g' := s.g.removeIsolated 32 s.g.countIsolated
      let part := partitioner g'
      let gi := g'.integrateIsolated 32
      let a := assign gi.1.n gi.2 k mx gi.1.nodeWeight part (blockWeights g' part) r.garbage
      ({ s with g := gi.1 }, finish r { s with g := gi.1 } a.part out)
    else (s, finish r s (partitioner s.g) out)

end Verif.Facade
