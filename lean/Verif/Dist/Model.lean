import Verif.Math.Model
import Verif.Util

/-!
# Model of the import of a distributed graph

Sources: `kaminpar-dist/dkaminpar.cc` (DK), `kaminpar-dist/datastructures/ghost_node_mapper.h` (GNM),
`kaminpar-dist/datastructures/distributed_csr_graph.h` (DCG), `kaminpar-dist/dkaminpar.h`.

Node and edge IDs of one process (`NodeID`, `EdgeID`) are 32-bit words, weights on one process are 32-bit `int`s, as in
the default build; IDs and weights of the library interface are 64 bits wide.  An access out of bounds and the use of a search
result that does not exist are `none`.
-/

namespace Verif.Dist
open Verif.Math

/-- What the caller passes on one process, DK 182-188; an empty span stands for "all weights are 1". -/
structure Input where
  xadj : List Nat
  adjncy : List Nat
  vwgt : List Int
  adjwgt : List Int

/-- The conversion of a 64-bit weight to a 32-bit `int`, DK 249 and 256. -/
def narrow (x : Int) : Int := Int.bmod x (2 ^ 32)

/-- `graph::GhostNodeMapper` while ghost nodes are added, GNM 293-302: the concurrent hash map and the next free ID. -/
structure Mapper where
  table : List (Nat × Nat)
  next : Nat

/-- `new_ghost_node`, GNM 241-253.  One atomic step: the accessor keeps other threads from the entry from its insertion until
its value is written, and calls with different arguments share nothing but the atomic counter. -/
def Mapper.newGhostNode (m : Mapper) (g : Nat) : Mapper × Nat :=
  match m.table.lookup g with
  | some l => (m, l)
  | none => (⟨(g, m.next) :: m.table, (m.next + 1) % 2 ^ 32⟩, m.next)

/-- The mapper and the array `edges` during the loop DK 235-242. -/
structure Edges where
  mapper : Mapper
  edges : Nat → Nat

/-- One iteration of the parallel loop over the edges, DK 235-242. -/
def mapEdge? (fr to : Nat) (adjncy : List Nat) (s : Edges) (e : Nat) : Option Edges :=
  adjncy[e]?.map fun v =>
    if fr ≤ v ∧ v < to then { s with edges := upd s.edges e ((v - fr) % 2 ^ 32) }
    else
      let r := s.mapper.newGhostNode v
      { mapper := r.1, edges := upd s.edges e r.2 }

/-- The copy of the edge weights, DK 244-250. -/
def copyEdgeWeights? (m : Nat) (adjwgt : List Int) : Option (List Int) :=
  if adjwgt = [] then some [] else (List.range m).mapM fun e => adjwgt[e]?.map narrow

/-- The copy of the node weights into an array with `capacity` entries, DK 253-257; the other entries are 0. -/
def copyNodeWeights? (n capacity : Nat) (vwgt : List Int) : Option (List Int) :=
  if vwgt = [] then some [] else if n ≤ capacity then
    ((List.range n).mapM fun u => vwgt[u]?.map narrow).map fun l => l ++ List.replicate (capacity - n) 0
  else none

/-- The arrays that `finalize` fills, GNM 261-264. -/
structure Ghosts where
  toGlobal : Nat → Nat
  owner : Nat → Nat
  toGhost : List (Nat × Nat)

/-- One iteration of the parallel loop of `finalize`, GNM 266-285, for arrays with `ghostN` entries.  The new hash table uses the
key `global_node + 1`; global node IDs are smaller than `2^64 - 1`.  It ignores an insertion for a key it has. -/
def finalizeEntry? (dist : List Nat) (n ghostN : Nat) (s : Ghosts) (e : Nat × Nat) : Option Ghosts :=
  let localGhost := subW 32 e.2 n
  if localGhost < ghostN then
    some { toGlobal := upd s.toGlobal localGhost e.1
           owner := upd s.owner localGhost (findInDistribution e.1 dist)
           toGhost := if (s.toGhost.lookup (e.1 + 1)).isSome then s.toGhost else (e.1 + 1, e.2) :: s.toGhost }
  else none

/-- The members of `DistributedCSRGraph` on one process, DCG 678-720 (without the parts for buckets, colors and cached totals). -/
structure DGraph where
  rank : Nat
  dist : List Nat
  nodes : List Nat
  edges : List Nat
  nodeWeights : List Int
  edgeWeights : List Int
  ghostOwner : List Nat
  ghostToGlobal : List Nat
  globalToGhost : List (Nat × Nat)

/-- The node weights and the result of `finalize`, DK 253-259, and the constructor call, DK 261-273. -/
def finish? (dist : List Nat) (rank : Nat) (inp : Input) (n m : Nat) (nodes : List Nat) (edgeWeights : List Int) (s : Edges)
    (shuffle : List (Nat × Nat) → List (Nat × Nat)) : Option DGraph := do
  let nodeWeights ← copyNodeWeights? n ((n + s.mapper.next) % 2 ^ 32) inp.vwgt
  let ghostN := subW 32 s.mapper.next n
  let t ← (shuffle s.mapper.table).foldlM (finalizeEntry? dist n ghostN) ⟨fun _ => 0, fun _ => 0, []⟩
  return {
    rank := rank
    dist := dist
    nodes := nodes
    edges := (List.range m).map s.edges
    nodeWeights := nodeWeights
    edgeWeights := edgeWeights
    ghostOwner := (List.range ghostN).map t.owner
    ghostToGlobal := (List.range ghostN).map t.toGlobal
    globalToGhost := t.toGhost }

/-- The three concurrent copies, DK 228-251, for `n` nodes and `m` edges, and the rest. -/
def build? (dist : List Nat) (rank : Nat) (inp : Input) (fr to n m : Nat) (order : List Nat)
    (shuffle : List (Nat × Nat) → List (Nat × Nat)) : Option DGraph := do
  let nodes ← (List.range (n + 1)).mapM fun u => inp.xadj[u]?.map (· % 2 ^ 32)
  let s ← order.foldlM (mapEdge? fr to inp.adjncy) ⟨⟨[], n⟩, fun _ => 0⟩
  let edgeWeights ← copyEdgeWeights? m inp.adjwgt
  finish? dist rank inp n m nodes edgeWeights s shuffle

/-- The number of edges, DK 196, and the rest. -/
def importN? (dist : List Nat) (rank : Nat) (inp : Input) (fr to n : Nat) (order : List Nat)
    (shuffle : List (Nat × Nat) → List (Nat × Nat)) : Option DGraph :=
  inp.xadj[n]?.bind fun x => build? dist rank inp fr to n (x % 2 ^ 32) order shuffle

/-- `import_graph` on one process, DK 182-273.  The iterations of the loop over the edges run in the order `order`, those of the
loop over the hash table in the order that `shuffle` returns. -/
def import? (dist : List Nat) (rank : Nat) (inp : Input) (order : List Nat) (shuffle : List (Nat × Nat) → List (Nat × Nat)) :
    Option DGraph :=
  dist[rank]?.bind fun fr => dist[rank + 1]?.bind fun to =>
    importN? dist rank inp fr to (subW 64 to fr % 2 ^ 32) order shuffle

/-- `edge_distribution`, DK 199-216: `MPI_Allgather` collects the numbers of edges of all processes, then an exclusive prefix sum
over one more entry. -/
def edgeDistribution (ms : List Nat) : List Nat :=
  (ms ++ [0]).foldl (fun (s : List Nat × Nat) m => (s.1 ++ [s.2], s.2 + m)) ([], 0) |>.1

namespace DGraph

/-- `n()`, DCG 90 and 123-125. -/
def n (g : DGraph) : Nat := g.nodes.length - 1

/-- `ghost_n()`, DCG 92 and 132-134. -/
def ghostN (g : DGraph) : Nat := g.ghostToGlobal.length

/-- `total_n()`, DCG 136-138. -/
def totalN (g : DGraph) : Nat := g.ghostN + g.n

/-- `offset_n()`, DCG 93 and 149-151. -/
def offset? (g : DGraph) : Option Nat := g.dist[g.rank]?

/-- `is_owned_global_node`, DCG 227-229. -/
def isOwnedGlobal? (g : DGraph) (v : Nat) : Option Bool :=
  g.offset?.map fun off => decide (off ≤ v ∧ v < off + g.n)

/-- `contains_global_node`, DCG 231-234. -/
def containsGlobal? (g : DGraph) (v : Nat) : Option Bool :=
  (g.isOwnedGlobal? v).map fun b => b || (g.globalToGhost.lookup (v + 1)).isSome

/-- `is_ghost_node`, DCG 244-247. -/
def isGhost (g : DGraph) (l : Nat) : Bool := decide (g.n ≤ l)

/-- `ghost_owner`, DCG 254-260. -/
def owner? (g : DGraph) (l : Nat) : Option Nat := g.ghostOwner[l - g.n]?

/-- `local_to_global_node`, DCG 268-271. -/
def localToGlobal? (g : DGraph) (l : Nat) : Option Nat :=
  if l < g.n then g.offset?.map (· + l) else g.ghostToGlobal[l - g.n]?

/-- `global_to_local_node`, DCG 273-282. -/
def globalToLocal? (g : DGraph) (v : Nat) : Option Nat :=
  g.offset?.bind fun off => if off ≤ v ∧ v < off + g.n then some (v - off) else g.globalToGhost.lookup (v + 1)

/-- `map_remote_node`, DCG 262-266. -/
def mapRemote? (g : DGraph) (theirNode pe : Nat) : Option Nat :=
  g.dist[pe]?.bind fun off => g.globalToLocal? (off + theirNode)

/-- `find_owner_of_global_node`, DCG 512-517. -/
def findOwner (g : DGraph) (v : Nat) : Nat := findInDistribution v g.dist

/-- `node_weight`, DCG 187-189. -/
def nodeWeight? (g : DGraph) (l : Nat) : Option Int :=
  if g.nodeWeights = [] then some 1 else g.nodeWeights[l]?

/-- `edge_weight`, DCG 211-213, and the weight that `adjacent_nodes` passes, DCG 345-349. -/
def edgeWeight? (g : DGraph) (e : Nat) : Option Int :=
  if g.edgeWeights = [] then some 1 else g.edgeWeights[e]?

/-- `adjacent_nodes`, DCG 311-350: the neighbours with the weights of the edges, in order. -/
def adjacent? (g : DGraph) (u : Nat) : Option (List (Nat × Int)) := do
  let fr ← g.nodes[u]?
  let to ← g.nodes[u + 1]?
  (List.range' fr (to - fr)).mapM fun e => do
    let v ← g.edges[e]?
    let w ← g.edgeWeight? e
    return (v, w)

end DGraph

end Verif.Dist
