import Mathlib.Data.List.Dedup
import Verif.Dist.Model

/-!
# What a distributed graph is

The nodes of the graph are numbered globally; process `q` owns the nodes `dist[q], …, dist[q + 1] - 1` and knows their
neighbours.
-/

namespace Verif.Dist

/-- Process `q` owns the global node `v`. -/
def Owns (dist : List Nat) (q v : Nat) : Prop :=
  ∃ lo hi, dist[q]? = some lo ∧ dist[q + 1]? = some hi ∧ lo ≤ v ∧ v < hi

/-- The first node of process `q`. -/
def first (dist : List Nat) (q : Nat) : Nat := dist.getD q 0

/-- The number of nodes of process `q`. -/
def localN (dist : List Nat) (q : Nat) : Nat := first dist (q + 1) - first dist q

/-- The weight of an edge in the input. -/
def Input.weight (inp : Input) (e : Nat) : Int := if inp.adjwgt = [] then 1 else inp.adjwgt.getD e 0

/-- The weight of a node in the input. -/
def Input.nodeWeight (inp : Input) (u : Nat) : Int := if inp.vwgt = [] then 1 else inp.vwgt.getD u 0

/-- The neighbours, with global IDs, of the `u`-th node of the process in the input, with the weights of the edges. -/
def Input.neighbours (inp : Input) (u : Nat) : List (Nat × Int) :=
  (List.range' (inp.xadj.getD u 0) (inp.xadj.getD (u + 1) 0 - inp.xadj.getD u 0)).map fun e => (inp.adjncy.getD e 0, inp.weight e)

/-- The nodes of other processes that are neighbours of nodes of process `q`, each once. -/
def foreign (dist : List Nat) (q : Nat) (inp : Input) : List Nat :=
  (inp.adjncy.filter fun v => decide (v < first dist q ∨ first dist (q + 1) ≤ v)).dedup

/-- The input of process `rank` is a part of a distributed graph with node IDs below `dist.getLast`. -/
structure Valid (dist : List Nat) (rank : Nat) (inp : Input) : Prop where
  exists_rank : rank + 1 < dist.length
  zero : first dist 0 = 0
  sorted : ∀ q, q < dist.length - 1 → first dist q ≤ first dist (q + 1)
  bound : first dist (dist.length - 1) < 2 ^ 64
  xadj_length : inp.xadj.length = localN dist rank + 1
  xadj_zero : inp.xadj.getD 0 0 = 0
  xadj_sorted : ∀ u, u < localN dist rank → inp.xadj.getD u 0 ≤ inp.xadj.getD (u + 1) 0
  xadj_last : inp.xadj.getD (localN dist rank) 0 = inp.adjncy.length
  targets : ∀ v, v ∈ inp.adjncy → v < first dist (dist.length - 1)
  adjwgt : inp.adjwgt = [] ∨ inp.adjwgt.length = inp.adjncy.length
  vwgt : inp.vwgt = [] ∨ inp.vwgt.length = localN dist rank

/-- The part of the process fits into 32-bit IDs and weights. -/
structure Fits (dist : List Nat) (rank : Nat) (inp : Input) : Prop where
  nodes : localN dist rank + (foreign dist rank inp).length < 2 ^ 32
  edges : inp.adjncy.length < 2 ^ 32
  weights : ∀ w, w ∈ inp.vwgt ∨ w ∈ inp.adjwgt → -2 ^ 31 ≤ w ∧ w < 2 ^ 31
  /-- The array of node weights has room for the nodes of the process, counted twice, and the foreign nodes. -/
  array : inp.vwgt = [] ∨ 2 * localN dist rank + (foreign dist rank inp).length < 2 ^ 32

/-- The graph `g` in the memory of process `rank` represents its part of the distributed graph. -/
structure Represents (dist : List Nat) (rank : Nat) (inp : Input) (g : DGraph) : Prop where
  rank_eq : g.rank = rank
  dist_eq : g.dist = dist
  /-- The nodes of the process have the local IDs `0, 1, …` in their order, then come the foreign nodes. -/
  n_eq : g.n = localN dist rank
  total : g.totalN = localN dist rank + (foreign dist rank inp).length
  own : ∀ u, u < localN dist rank → g.localToGlobal? u = some (first dist rank + u)
  ghost : ∀ l, localN dist rank ≤ l → l < g.totalN → ∃ v q, g.localToGlobal? l = some v ∧ v ∈ foreign dist rank inp ∧
    g.owner? l = some q ∧ Owns dist q v ∧ q ≠ rank
  /-- Local and global IDs correspond one to one. -/
  inverse : ∀ l v, l < g.totalN → g.localToGlobal? l = some v → g.globalToLocal? v = some l
  inverse' : ∀ v l, g.globalToLocal? v = some l → l < g.totalN ∧ g.localToGlobal? l = some v
  contains : ∀ v, g.containsGlobal? v = some (decide (first dist rank ≤ v ∧ v < first dist (rank + 1)) ||
    decide (v ∈ foreign dist rank inp))
  /-- The neighbours are those of the input, in the same order and with the same weights. -/
  neighbours : ∀ u, u < localN dist rank → ∃ l, g.adjacent? u = some l ∧
    l.mapM (fun x => (g.localToGlobal? x.1).map fun v => (v, x.2)) = some (inp.neighbours u)
  /-- There is room for the weights of the foreign nodes if nodes have weights. -/
  room : if inp.vwgt = [] then g.nodeWeights = [] else g.totalN ≤ g.nodeWeights.length
  node_weight : ∀ u, u < localN dist rank → g.nodeWeight? u = some (inp.nodeWeight u)
  find_owner : ∀ v, v < first dist (dist.length - 1) → Owns dist (g.findOwner v) v
  /-- Exactly the nodes of other processes are ghost nodes. -/
  is_ghost : ∀ l v, l < g.totalN → g.localToGlobal? l = some v → (g.isGhost l = true ↔ ¬Owns dist rank v)
  /-- The `u`-th node of process `q` is found. -/
  map_remote : ∀ q u l, q + 1 < dist.length → (g.mapRemote? u q = some l ↔ l < g.totalN ∧ g.localToGlobal? l = some (first dist q + u))

end Verif.Dist
