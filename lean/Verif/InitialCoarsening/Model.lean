import Verif.Graph.Basic
import Verif.Maps.Model

/-!
# Model of the sequential coarsening used for initial bipartitioning

Sources: `kaminpar-shm/initial_partitioning/initial_coarsener.cc` (IC), `initial_coarsener.h` (ICH) and
`sequential_graph_hierarchy.cc` (SH).

Random coins, the order of the chunks and the permutations are arbitrary oracles, and so is the outcome of the floating point
comparison that decides whether coarsening has converged.  Arrays are functions on indices; what a previous use of the object
left in `_clustering` and `_interleaved_locked` is arbitrary.  Simplifications: weights are integers without overflow, except
for the bit-field `Cluster::weight`; memory reuse, timers and heap profiling are not modelled; the coarse graph is the arrays
`c_nodes` and `c_edges` with `c_edge_weights` in one list of pairs.  `none` is undefined behaviour: an access outside of a map, or
`used_entry_ids()` growing while it is traversed.
-/

namespace Verif.InitialCoarsening
open Verif.Maps (FastResetArray)

/-- Conversion to a signed bit-field of the given width, as `Cluster::weight` with `numeric_limits<NodeWeight>::digits - 1`
bits, ICH 53: 30 bits for 32-bit node weights, 62 bits for 64-bit node weights. -/
def fit (bits : Nat) (x : Int) : Int := x.bmod (2 ^ bits)

/-- `_clustering` (ICH 50-55) and `_current_num_moves`. -/
structure Clus where
  locked : Nat → Bool
  weight : Nat → Int
  leader : Nat → Nat
  moves : Nat

/-- `_clustering` with `_current_num_moves`, `_rating_map` and `_interleaved_locked`. -/
structure St where
  cl : Clus
  rating : FastResetArray
  ilocked : Bool

/-- `reset_current_clustering`, ICH 86-96 and IC 408-429 (for a graph without node weights all weights are equal). -/
def reset (bits : Nat) (n : Nat) (w : Nat → Int) (cl : Clus) : Clus where
  locked := fun u => if u < n then false else cl.locked u
  weight := fun u => if u < n then fit bits (w u) else cl.weight u
  leader := fun u => if u < n then u else cl.leader u
  moves := 0

/-- The loop of `pick_cluster_from_rating_map`, IC 99-110, over the remaining used entries.  `_rating_map[cluster]` appends to the
list that is traversed if the entry is zero. -/
def pickLoop? (max uw : Int) (weight : Nat → Int) (coin : Nat → Bool) : List Nat → Nat → Int → (Nat → Int) →
    Option (Nat × (Nat → Int))
  | [], best, _, data => some (best, data)
  | c :: l, best, bestGain, data =>
    if data c = 0 then none
    else
      let gain := data c
      let data := upd data c 0
      if (gain > bestGain ∨ (gain = bestGain ∧ coin c)) ∧ weight c + uw ≤ max then pickLoop? max uw weight coin l c gain data
      else pickLoop? max uw weight coin l best bestGain data

/-- `pick_cluster_from_rating_map`, IC 93-114. -/
def pick? (max uw : Int) (coin : Nat → Bool) (cl : Clus) (rating : FastResetArray) (u : Nat) :
    Option (Nat × FastResetArray) := do
  let (best, data) ← pickLoop? max uw cl.weight coin rating.used u 0 rating.data
  some (best, { rating with data, used := [] })

/-- The node `u` joins the cluster `best` if it is not its own, IC 178-183 and 437-442. -/
def join (bits : Nat) (cl : Clus) (u best : Nat) (uw : Int) : Clus :=
  if best ≠ u then
    { locked := upd cl.locked best true
      weight := upd cl.weight best (fit bits (cl.weight best + uw))
      leader := upd cl.leader u best
      moves := cl.moves + 1 }
  else cl

/-- `handle_node`, IC 170-184, with `pick_cluster`, IC 82-91. -/
def handle? (bits : Nat) (max : Int) (coin : Nat → Nat → Bool) (g : Graph) (s : St) (u : Nat) : Option St :=
  if s.cl.locked u then some s
  else do
    let rating ← (g.adj u).foldlM (fun r e => r.modify? (s.cl.leader e.1) (· + e.2)) s.rating
    let (best, rating) ← pick? max (g.w u) (coin u) s.cl rating u
    some { s with cl := join bits s.cl u best (g.w u), rating }

/-- `kChunkSize`, ICH. -/
def chunkSize : Nat := 256

/-- The order in which the nodes of a bucket are handled, IC 123-157: `chunks` is the shuffled list of the numbers of the full
chunks, `perm j` the permutation used for the `j`-th of them; the remaining nodes follow. -/
def bucketOrder (first size : Nat) (chunks : List Nat) (perm : Nat → List Nat) : List Nat :=
  (chunks.zipIdx.flatMap fun (i, j) => (perm j).map fun x => first + i * chunkSize + x) ++
    (List.range (size % chunkSize)).map fun x => first + size - size % chunkSize + x

/-- The order of all nodes, IC 119-158: the buckets below `max_bucket`, where bucket `b` is the nodes `start b .. start (b + 1)`. -/
def lpOrder (buckets : Nat) (start : Nat → Nat) (chunks : Nat → List Nat) (perm : Nat → Nat → List Nat) : List Nat :=
  (List.range buckets).flatMap fun b => bucketOrder (start b) (start (b + 1) - start b) (chunks b) (perm b)

/-- What is computed in the first loop of `contract_current_clustering`, IC 253-276. -/
structure MapSt where
  cur : Nat
  lmap : Nat → Nat
  cw : Nat → Int
  mapping : Nat → Nat
  sizes : Nat → Nat

/-- One iteration, IC 264-275. -/
def mapStep (cl : Clus) (s : MapSt) (u : Nat) : MapSt :=
  let l := cl.leader u
  let s := if s.lmap l = 0 then
      { s with cw := upd s.cw s.cur (cl.weight l), lmap := upd s.lmap l (s.cur + 1), cur := s.cur + 1 }
    else s
  let c := s.lmap l - 1
  { s with mapping := upd s.mapping u c, sizes := upd s.sizes c (s.sizes c + 1) }

/-- The first loop, IC 246-276; `cw` and `mapping` are previous contents of the memory. -/
def mapLoop (n : Nat) (cl : Clus) (cw : Nat → Int) (mapping : Nat → Nat) : MapSt :=
  (List.range n).foldl (mapStep cl) { cur := 0, lmap := fun _ => 0, cw, mapping, sizes := fun _ => 0 }

/-- The prefix sums, IC 284-287. -/
def prefixLoop (n : Nat) (sizes : Nat → Nat) : Nat → Nat :=
  ((List.range n).foldl (fun (s : Nat × (Nat → Nat)) u => (s.1 + s.2 u, upd s.2 u s.1)) (0, sizes)).2

/-- `_cluster_nodes`, IC 290-292; `old` is the previous content. -/
def placeLoop (n : Nat) (mapping : Nat → Nat) (sizes : Nat → Nat) (old : Nat → Nat) : Nat → Nat :=
  ((List.range n).foldl (fun (s : (Nat → Nat) × (Nat → Nat)) u =>
    (upd s.1 (s.2 (mapping u)) u, upd s.2 (mapping u) (s.2 (mapping u) + 1))) (old, sizes)).1

/-- The state of the second part of `contract_current_clustering`, IC 315-366: the clustering of the coarse graph, the edge weight
collector, the current coarse node, `c_nodes[0..c_u]` and the coarse edges. -/
structure Con where
  s : St
  coll : FastResetArray
  cu : Nat
  nodes : List Nat
  edges : List (Nat × Int)

/-- `interleaved_handle_node`, IC 431-446. -/
def handleI? (bits : Nat) (max : Int) (coin : Nat → Nat → Bool) (s : St) (cu : Nat) (w : Int) : Option St := do
  let s ← if s.ilocked then some s
    else do
      let (best, rating) ← pick? max w (coin cu) s.cl s.rating cu
      some { s with cl := join bits s.cl cu best w, rating }
  some { s with ilocked := s.cl.locked (cu + 1) }

/-- The current coarse node is finished, IC 329-336 and 351-361. -/
def flush? (bits : Nat) (max : Int) (coin : Nat → Nat → Bool) (cw : Nat → Int) (c : Con) : Option Con := do
  let s ← handleI? bits max coin c.s c.cu (cw c.cu)
  let edges := c.edges ++ c.coll.entries
  some { s, coll := c.coll.clear, cu := c.cu + 1, nodes := c.nodes ++ [edges.length], edges }

/-- One edge, IC 339-346 with `interleaved_visit_neighbor`, IC 448-454. -/
def visit? (mapping : Nat → Nat) (c : Con) (e : Nat × Int) : Option Con :=
  let cv := mapping e.1
  if c.cu ≠ cv then do
    let coll ← c.coll.modify? cv (· + e.2)
    let rating ← if c.s.ilocked then some c.s.rating else c.s.rating.modify? (c.s.cl.leader cv) (· + e.2)
    some { c with coll, s := { c.s with rating } }
  else some c

/-- One node, IC 321-347. -/
def node? (bits : Nat) (max : Int) (coin : Nat → Nat → Bool) (g : Graph) (mapping : Nat → Nat) (cw : Nat → Int) (c : Con)
    (u : Nat) : Option Con := do
  let c ← if mapping u ≠ c.cu then flush? bits max coin cw c else some c
  (g.adj u).foldlM (visit? mapping) c

/-- The graph with the given arrays. -/
def csr (n : Nat) (w : Nat → Int) (nodes : List Nat) (edges : List (Nat × Int)) : Graph where
  n := n
  w := w
  adj := fun c => (edges.drop (nodes.getD c 0)).take (nodes.getD (c + 1) 0 - nodes.getD c 0)

/-- Previous contents of the memory used by the contraction. -/
structure Mem where
  cw : Nat → Int
  mapping : Nat → Nat
  nodes : Nat → Nat

/-- `contract_current_clustering`, IC 186-406: the coarse graph, the mapping and the state with the clustering of the coarse
graph.  `coll` is `_edge_weight_collector`. -/
def contract? (bits : Nat) (max : Int) (coin : Nat → Nat → Bool) (g : Graph) (m : Mem) (s : St) (coll : FastResetArray) :
    Option (Graph × (Nat → Nat) × St × FastResetArray) := do
  let cn := g.n - s.cl.moves
  let a := mapLoop g.n s.cl m.cw m.mapping
  let nodes := placeLoop g.n a.mapping (prefixLoop g.n a.sizes) m.nodes
  let s := { s with cl := reset bits cn a.cw s.cl }
  let c ← ((List.range g.n).map nodes).foldlM (node? bits max coin g a.mapping a.cw)
    { s, coll, cu := 0, nodes := [0], edges := [] }
  let c ← flush? bits max coin a.cw c
  some (csr cn a.cw c.nodes c.edges, a.mapping, c.s, c.coll)

/-- An `InitialCoarsener` with its hierarchy: the levels, coarsest first, each with the mapping from the next finer graph.
`buckets` is the number of degree buckets of the input graph that are used (IC 120-122), `start` their first nodes; label propagation
is only used on the input graph. -/
structure Coarsener where
  finest : Graph
  buckets : Nat
  start : Nat → Nat
  levels : List (Graph × (Nat → Nat))
  st : St
  coll : FastResetArray
  precomputed : Bool
  imax : Int

/-- `current()`, SH 54-56. -/
def Coarsener.current (c : Coarsener) : Graph := match c.levels with
  | [] => c.finest
  | (h, _) :: _ => h

/-- `init`, IC 20-49 and SH 17-22, where `cl` and `ilocked` are left over from a previous use (`capacity` is at least `n`). -/
def Coarsener.init (g : Graph) (buckets : Nat) (start : Nat → Nat) (capacity : Nat) (cl : Clus) (ilocked : Bool)
    (imax : Int) : Coarsener where
  finest := g
  buckets := buckets
  start := start
  levels := []
  st := { cl, rating := FastResetArray.new capacity, ilocked }
  coll := FastResetArray.new capacity
  precomputed := false
  imax := imax

/-- The oracles of one call of `coarsen`: coins, the order of the nodes in label propagation, whether coarsening has converged, and the
previous contents of the memory. -/
structure Oracle where
  coinLp : Nat → Nat → Bool
  coin : Nat → Nat → Bool
  chunks : Nat → List Nat
  perm : Nat → Nat → List Nat
  converged : Bool
  mem : Mem

/-- `perform_label_propagation`, IC 116-168. -/
def lp? (bits : Nat) (max : Int) (o : Oracle) (order : List Nat) (g : Graph) (s : St) : Option St :=
  order.foldlM (handle? bits max o.coinLp g) { s with cl := reset bits g.n g.w s.cl }

/-- The clustering of the current graph: the one that was computed together with it, or label propagation, IC 55-57. -/
def Coarsener.cluster? (bits : Nat) (max : Int) (o : Oracle) (c : Coarsener) : Option St :=
  if c.precomputed then some c.st
  else lp? bits max o (lpOrder c.buckets c.start o.chunks o.perm) c.current c.st

/-- `coarsen`, IC 51-74.  The clustering of the next level is computed with the limit of this call. -/
def Coarsener.coarsen? (bits : Nat) (max : Int) (o : Oracle) (c : Coarsener) : Option Coarsener := do
  let st ← c.cluster? bits max o
  if o.converged then some { c with st, precomputed := true }
  else do
    let (h, mapping, st, coll) ← contract? bits max o.coin c.current o.mem st c.coll
    some { c with levels := (h, mapping) :: c.levels, st, coll, precomputed := true, imax := max }

/-- `pop`, SH 58-100, for the partition `part` of the coarsest graph: the block of each node of the next finer graph. -/
def project (mapping : Nat → Nat) (part : Nat → Nat) : Nat → Nat := fun u => part (mapping u)

/-- The block weights of the projected partition, SH 72-76 and `init_block_weights_seq`, `partitioned_graph.h` 306-312. -/
def projectedWeights (g : Graph) (part : Nat → Nat) : Nat → Int :=
  (List.range g.n).foldl (fun bw u => upd bw (part u) (bw (part u) + g.w u)) fun _ => 0

/-- `uncoarsen` until the hierarchy is empty, without refinement in between: the partition of the finest graph. -/
def projectAll : List (Graph × (Nat → Nat)) → (Nat → Nat) → (Nat → Nat)
  | [], part => part
  | (_, mapping) :: levels, part => projectAll levels (project mapping part)

end Verif.InitialCoarsening
