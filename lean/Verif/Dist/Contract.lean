import Verif.Dist.Comm
import Verif.Dist.Replicate

/-!
# Model of the contraction of a distributed clustering

Source: `kaminpar-dist/coarsening/contraction/global_cluster_contraction.cc` (GCC); also `kaminpar-dist/datastructures/ghost_node_mapper.h` (GNM).

The instance for `DistributedCSRGraph` without the redistribution of clusters (GCC 1239-1263) is modelled.  Sums of weights are exact; with
weights that are not negative none of them exceeds the weight of a coarse node or edge.  An access out of bounds, a search without a
result whose result is used and a count that is no 32-bit `int` are `none`.  `MPI_Allgather` in `build_distribution` (GCC 524-532) names
different types for what is sent and what is received; the model lets the counts arrive.
-/

namespace Verif.Dist
open Verif.Math

variable {α : Type}

/-- An edge `(u, v, weight)`: `GlobalEdge`, GCC 163-167. -/
abbrev GEdge := Nat × Nat × Int

/-- What threads and sorting algorithms of one process decide: the results of the sorting algorithms (GCC 450-452, 488-490 and 1323-1325),
the blocks of the parallel loop that counts edges (GCC 759-773), the orders in which ghost nodes are created (GCC 1335-1359) and entered
into the final table (GNM 266-285), the order of the entries of a bucket (GCC 644-667) and of the entries of a rating map (GCC 1445). -/
structure Orders where
  sortNodes : List (Nat × Int) → List (Nat × Int)
  sortPairs : List GEdge → List GEdge
  sortSources : List GEdge → List GEdge
  blocks : Nat → List (Nat × Nat)
  targets : List Nat → List Nat
  table : List (Nat × Nat) → List (Nat × Nat)
  bucket : Nat → List Nat → List Nat
  entries : Nat → List (Nat × Int) → List (Nat × Int)

/-- `map[k] += w` for a map without an entry for `k` or with one, GCC 332-337 and 1412-1426. -/
def addTo (k : Nat) (w : Int) : List (Nat × Int) → List (Nat × Int)
  | [] => [(k, w)]
  | x :: t => if x.1 = k then (k, x.2 + w) :: t else x :: addTo k w t

/-- One iteration of the loop of `find_nonlocal_nodes`, GCC 314-339; `lab` is the array of the clusters. -/
def nonlocalStep? (g : DGraph) (lab : List Nat) (t : List (Nat × Int)) (l : Nat) : Option (List (Nat × Int)) :=
  lab[l]?.bind fun c => (g.isOwnedGlobal? c).bind fun owned =>
    if owned then some t else (if l < g.n then g.nodeWeight? l else some 0).map fun w => addTo c w t

/-- `find_nonlocal_nodes` and `sort_node_list`, GCC 300-352 and 485-491.  The order of the hash map is lost by sorting. -/
def nonlocalNodes? (S : Orders) (g : DGraph) (lab : List Nat) : Option (List (Nat × Int)) :=
  ((List.range g.totalN).foldlM (nonlocalStep? g lab) []).map S.sortNodes

/-- `++num_elements_for_pe[pe]` for `N` processes. -/
def countFor? (N : Nat) (num : Nat → Nat) (pe : Nat) : Option (Nat → Nat) := if pe < N then some (upd num pe (num pe + 1)) else none

/-- The counts of `migrate_nodes`, GCC 727-738.  The threads have counters of their own, whose sum is used. -/
def nodeCounts? (N : Nat) (g : DGraph) (els : List (Nat × Int)) : Option (List Nat) :=
  (els.foldlM (fun num x => countFor? N num (g.findOwner x.1)) fun _ => 0).map fun num => (List.range N).map num

/-- The part of the send buffer for process `q`, given the counts and their exclusive prefix sums, GCC 690-706. -/
def segment? (buf : List α) (counts : List Nat) (q : Nat) : Option (List α) :=
  counts[q]?.bind fun c =>
    if (counts.take q).sum + c ≤ buf.length ∧ (counts.take q).sum + c < 2 ^ 31 then some ((buf.drop (counts.take q).sum).take c) else none

/-- `MPI_Alltoallv` on process `me`, GCC 695-706: process `p` sends parts of `buf? p`, and the parts for `me` are stored one after the
other. -/
def alltoallv? (N : Nat) (buf? : Nat → Option (List α)) (counts? : Nat → Option (List Nat)) (me : Nat) : Option (List α) :=
  ((List.range N).mapM fun p => (buf? p).bind fun b => (counts? p).bind fun c => segment? b c me).bind fun l =>
    if l.flatten.length < 2 ^ 31 then some l.flatten else none

/-- The received counts, `MPI_Alltoall`, GCC 692. -/
def recvCounts? (N : Nat) (counts? : Nat → Option (List Nat)) (me : Nat) : Option (List Nat) :=
  (List.range N).mapM fun p => (counts? p).bind fun c => c[me]?

/-- The exchange in the opposite direction, with the counts swapped, GCC 816-826 and 103-113. -/
def reply? (N : Nat) (buf? : Nat → Option (List α)) (counts? : Nat → Option (List Nat)) (me : Nat) : Option (List α) :=
  alltoallv? N buf? (recvCounts? N counts?) me

/-- `lcluster_to_lcnode[gcluster - offset] = 1`, GCC 567-568 and 577-578. -/
def mark? (g : DGraph) (arr : Nat → Nat) (c : Nat) : Option (Nat → Nat) :=
  g.offset?.bind fun off => if off ≤ c ∧ c - off < g.n then some (upd arr (c - off) 1) else none

/-- One iteration of the loop over the nodes, GCC 563-570. -/
def markNode? (g : DGraph) (lab : List Nat) (arr : Nat → Nat) (u : Nat) : Option (Nat → Nat) :=
  lab[u]?.bind fun c => (g.isOwnedGlobal? c).bind fun owned => if owned then mark? g arr c else some arr

/-- `x - 1` for 32-bit words. -/
def pred32 (x : Nat) : Nat := if x = 0 then 2 ^ 32 - 1 else x - 1

/-- `build_lcluster_to_lcnode_mapping`, GCC 548-592; `recv` are the received nodes.  All writes store 1. -/
def lcnodes? (g : DGraph) (lab : List Nat) (recv : List (Nat × Int)) : Option (List Nat) :=
  ((List.range g.n).foldlM (markNode? g lab) fun _ => 0).bind fun arr =>
    (recv.foldlM (fun arr x => mark? g arr x.1) arr).map fun arr =>
      (List.range g.n).map fun i => pred32 ((List.range (i + 1)).map arr).sum

/-- `c_n`, GCC 1212. -/
def coarseN (lc : List Nat) : Nat :=
  match lc.getLast? with
  | none => 0
  | some x => (x + 1) % 2 ^ 32

/-- The coarse node of the cluster `c` of this process, as local ID, GCC 802-804. -/
def lcnode? (g : DGraph) (lc : List Nat) (c : Nat) : Option Nat :=
  g.offset?.bind fun off => if off ≤ c then lc[c - off]? else none

/-- `their_nonlocal_to_gcnode`, GCC 795-811. -/
def answers? (g : DGraph) (lc cdist : List Nat) (recv : List (Nat × Int)) : Option (List (Nat × Nat)) :=
  cdist[g.rank]?.bind fun c0 => recv.mapM fun x => (lcnode? g lc x.1).map fun l => (x.1, l + c0)

/-- `gcluster_to_gcnode`, GCC 209-227; `t` is the table of the clusters of other processes. -/
def gcnode? (g : DGraph) (lc cdist : List Nat) (t : List (Nat × Nat)) (c : Nat) : Option Nat :=
  g.dist[g.rank]?.bind fun fr => g.dist[g.rank + 1]?.bind fun ub => cdist[g.rank]?.bind fun c0 =>
    if fr ≤ c ∧ c < ub then lc[c - fr]?.map (c0 + ·) else t.lookup c

/-- `lnode_to_gcnode`, GCC 1267-1276. -/
def gcnodes? (g : DGraph) (lab lc cdist : List Nat) (t : List (Nat × Nat)) : Option (List Nat) :=
  (List.range g.totalN).mapM fun l => lab[l]?.bind (gcnode? g lc cdist t)

/-- The edges of one node that `find_nonlocal_edges` stores, GCC 416-434. -/
def nonlocalOf? (g : DGraph) (lab : List Nat) (u : Nat) : Option (List GEdge) :=
  lab[u]?.bind fun cu => (g.isOwnedGlobal? cu).bind fun owned =>
    if owned then some [] else (g.adjacent? u).bind fun l =>
      (l.mapM fun x => lab[x.1]?.map fun cv => (cu, cv, x.2)).map fun es => es.filter fun e => decide (cu ≠ e.2.1)

/-- `find_nonlocal_edges`, GCC 385-437.  Prefix sums of the numbers of edges make the edges of the nodes follow one another. -/
def nonlocalEdges? (g : DGraph) (lab : List Nat) : Option (List GEdge) :=
  ((List.range g.n).mapM (nonlocalOf? g lab)).map List.flatten

/-- Neighbouring edges with the same ends become one, GCC 455-482. -/
def mergeRuns : List GEdge → List GEdge
  | [] => []
  | e :: l =>
    match mergeRuns l with
    | [] => [e]
    | f :: r => if e.1 = f.1 ∧ e.2.1 = f.2.1 then (e.1, e.2.1, e.2.2 + f.2.2) :: r else e :: f :: r

/-- The edges that a process sends, GCC 1281-1316: both ends are replaced by coarse nodes. -/
def sentEdges? (S : Orders) (g : DGraph) (lab lc cdist : List Nat) (t : List (Nat × Nat)) : Option (List GEdge) :=
  (nonlocalEdges? g lab).bind fun es => (mergeRuns (S.sortPairs es)).mapM fun e =>
    (gcnode? g lc cdist t e.1).bind fun u => (gcnode? g lc cdist t e.2.1).map fun v => (u, v, e.2.2)

/-- One iteration of the loop that counts edges, GCC 764-770; the state are the counters and `current_pe`. -/
def countEdge? (N : Nat) (cdist : List Nat) (s : (Nat → Nat) × Nat) (e : GEdge) : Option ((Nat → Nat) × Nat) :=
  (advance? cdist e.1 cdist.length s.2).bind fun pe => (countFor? N s.1 pe).map fun num => (num, pe)

/-- One block of the loop, GCC 761-771: its first edge and the number of its edges. -/
def countBlock? (N : Nat) (cdist : List Nat) (es : List GEdge) (num : Nat → Nat) (b : Nat × Nat) : Option (Nat → Nat) :=
  (((es.drop b.1).take b.2).foldlM (countEdge? N cdist) (num, 0)).map (·.1)

/-- The counts of `migrate_edges`, GCC 755-775. -/
def edgeCounts? (S : Orders) (N : Nat) (cdist : List Nat) (es : List GEdge) : Option (List Nat) :=
  ((S.blocks es.length).foldlM (countBlock? N cdist es) fun _ => 0).map fun num => (List.range N).map num

/-- Sorting the received edges and `localize_global_edge_list`, GCC 1321-1329 and 594-599. -/
def localizeEdges? (S : Orders) (rank : Nat) (cdist : List Nat) (es : List GEdge) : Option (List GEdge) :=
  cdist[rank]?.bind fun c0 => (S.sortSources es).mapM fun e => if c0 ≤ e.1 then some (e.1 - c0, e.2) else none

/-- `is_owned_gcnode`, GCC 1216-1218. -/
def isOwnedC? (rank : Nat) (cdist : List Nat) (x : Nat) : Option Bool :=
  cdist[rank]?.bind fun lo => cdist[rank + 1]?.map fun hi => decide (lo ≤ x ∧ x < hi)

/-- The coarse nodes for which the loop over the nodes creates ghost nodes, GCC 1337-1349. -/
def nodeTargets? (g : DGraph) (cdist gcn : List Nat) (u : Nat) : Option (List Nat) :=
  gcn[u]?.bind fun x => (isOwnedC? g.rank cdist x).bind fun owned =>
    if owned then (g.adjacent? u).bind fun l => (l.mapM fun y => gcn[y.1]?.bind fun v =>
      (isOwnedC? g.rank cdist v).map fun o => if o then [] else [v]).map List.flatten
    else some []

/-- The coarse nodes for which the loop over the received edges creates ghost nodes, GCC 1352-1357. -/
def edgeTargets? (rank : Nat) (cdist : List Nat) (es : List GEdge) : Option (List Nat) :=
  (es.mapM fun e => (isOwnedC? rank cdist e.2.1).map fun o => if o then [] else [e.2.1]).map List.flatten

/-- The ghost nodes of the coarse graph, GCC 1331-1359: the mapper after all calls of `new_ghost_node`. -/
def coarseGhosts? (S : Orders) (g : DGraph) (cdist gcn : List Nat) (es : List GEdge) (cn : Nat) : Option Mapper :=
  ((List.range g.n).mapM (nodeTargets? g cdist gcn)).bind fun ts => (edgeTargets? g.rank cdist es).map fun ts' =>
    (S.targets (ts.flatten ++ ts')).foldl (fun m v => (m.newGhostNode v).1) ⟨[], cn⟩

/-- The fine nodes of the coarse node `lcu` in `build_node_buckets`, GCC 616-624 and 646-655. -/
def bucketNode? (g : DGraph) (lab lc : List Nat) (lcu u : Nat) : Option (List Nat) :=
  lab[u]?.bind fun c => (g.isOwnedGlobal? c).bind fun owned =>
    if owned then (lcnode? g lc c).map fun x => if x = lcu then [u] else [] else some []

/-- The entries for received edges in the bucket of `lcu`, GCC 627-631 and 658-665: `n` plus the index of the first one. -/
def bucketEdges (n : Nat) (es : List GEdge) (lcu : Nat) : List Nat :=
  ((List.range es.length).filter fun i => decide ((es.getD i (0, 0, 0)).1 = lcu ∧
    (i = 0 ∨ (es.getD i (0, 0, 0)).1 ≠ (es.getD (i - 1) (0, 0, 0)).1))).map fun i => (n + i) % 2 ^ 32

/-- The bucket of `lcu`, GCC 601-670.  The sort with atomic counters is the one of C29; its entries come in any order. -/
def bucket? (S : Orders) (g : DGraph) (lab lc : List Nat) (es : List GEdge) (lcu : Nat) : Option (List Nat) :=
  ((List.range g.n).mapM (bucketNode? g lab lc lcu)).map fun l => S.bucket lcu (l.flatten ++ bucketEdges g.n es lcu)

/-- `insert_edge`, GCC 1412-1426; `tg` is the table of the ghost nodes of the coarse graph. -/
def insertEdge? (rank : Nat) (cdist : List Nat) (tg : List (Nat × Nat)) (lcu : Nat) (map : List (Nat × Int)) (x : Nat × Int) :
    Option (List (Nat × Int)) :=
  (isOwnedC? rank cdist x.1).bind fun owned => (if owned then cdist[rank]?.map fun c0 => x.1 - c0 else tg.lookup (x.1 + 1)).map fun l =>
    if l ≠ lcu then addTo l x.2 map else map

/-- The edges, with coarse nodes as targets, and the weight that one entry of a bucket contributes, GCC 1428-1439. -/
def entryEdges? (g : DGraph) (gcn : List Nat) (es : List GEdge) (lcu u : Nat) : Option (Int × List (Nat × Int)) :=
  if u < g.n then
    (g.nodeWeight? u).bind fun w => (g.adjacent? u).bind fun l => (l.mapM fun x => gcn[x.1]?.map fun v => (v, x.2)).map fun r => (w, r)
  else some (0, ((es.drop (u - g.n)).takeWhile fun e => decide (e.1 = lcu)).map (·.2))

/-- `collect_edges`, GCC 1406-1449: the weight and the edges of the coarse node `lcu`. -/
def collect? (S : Orders) (g : DGraph) (lab lc cdist gcn : List Nat) (es : List GEdge) (tg : List (Nat × Nat)) (lcu : Nat) :
    Option (Int × List (Nat × Int)) :=
  (bucket? S g lab lc es lcu).bind fun us => (us.mapM (entryEdges? g gcn es lcu)).bind fun l =>
    ((l.map (·.2)).flatten.foldlM (insertEdge? g.rank cdist tg lcu) []).map fun m => ((l.map (·.1)).sum, S.entries lcu m)

/-- The weights of received nodes are added, GCC 1476-1479. -/
def addReceived? (g : DGraph) (lc : List Nat) (cn : Nat) (weights : Nat → Int) (x : Nat × Int) : Option (Nat → Int) :=
  (lcnode? g lc x.1).bind fun l => if l < cn then some (upd weights l (weights l + x.2)) else none

/-- The coarse graph of one process before the weights of its ghost nodes are exchanged, GCC 1331-1531.  `recv` are the received nodes,
`es` the received edges with local IDs of their sources.  The edges of coarse node 0 come first in the arrays, then those of 1, … -/
def coarseGraph? (S : Orders) (g : DGraph) (lab lc cdist gcn : List Nat) (recv : List (Nat × Int)) (es : List GEdge) : Option DGraph :=
  (coarseGhosts? S g cdist gcn es (coarseN lc)).bind fun m =>
    ((S.table m.table).foldlM (finalizeEntry? cdist (coarseN lc) (subW 32 m.next (coarseN lc))) ⟨fun _ => 0, fun _ => 0, []⟩).bind fun t =>
      ((List.range (coarseN lc)).mapM (collect? S g lab lc cdist gcn es t.toGhost)).bind fun l =>
        (recv.foldlM (addReceived? g lc (coarseN lc)) fun i => (l.getD i (0, [])).1).map fun weights => {
          rank := g.rank
          dist := cdist
          nodes := edgeDistribution (l.map (·.2.length))
          edges := (l.flatMap (·.2)).map (·.1)
          nodeWeights := (List.range (coarseN lc)).map weights ++ List.replicate (subW 32 m.next (coarseN lc)) 0
          edgeWeights := (l.flatMap (·.2)).map (·.2)
          ghostOwner := (List.range (subW 32 m.next (coarseN lc))).map t.owner
          ghostToGlobal := (List.range (subW 32 m.next (coarseN lc))).map t.toGlobal
          globalToGhost := t.toGhost }

section
variable (S : Nat → Orders) (N : Nat) (g : Nat → DGraph) (lab : Nat → List Nat)

/-- The nodes that process `p` sends. -/
def sentNodes? (p : Nat) : Option (List (Nat × Int)) := nonlocalNodes? (S p) (g p) (lab p)

/-- The numbers of nodes that process `p` sends to the others. -/
def sentNodeCounts? (p : Nat) : Option (List Nat) := (sentNodes? S g lab p).bind (nodeCounts? N (g p))

/-- The nodes that process `p` receives, GCC 1202-1203. -/
def recvNodes? (p : Nat) : Option (List (Nat × Int)) := alltoallv? N (sentNodes? S g lab) (sentNodeCounts? S N g lab) p

/-- `lcluster_to_lcnode` on process `p`, GCC 1208-1210. -/
def mapping? (p : Nat) : Option (List Nat) := (recvNodes? S N g lab p).bind (lcnodes? (g p) (lab p))

/-- `c_node_distribution`, GCC 1212-1214 and 518-538. -/
def coarseDist? : Option (List Nat) := ((List.range N).mapM (mapping? S N g lab)).map fun l => edgeDistribution (l.map coarseN)

/-- `my_nonlocal_to_gcnode` on process `p`, GCC 1223-1226 and 813-826. -/
def foreignMapping? (p : Nat) : Option (List (Nat × Nat)) :=
  (coarseDist? S N g lab).bind fun cdist =>
    reply? N (fun q => (mapping? S N g lab q).bind fun lc => (recvNodes? S N g lab q).bind (answers? (g q) lc cdist))
      (sentNodeCounts? S N g lab) p

/-- `lnode_to_gcnode` on process `p`, GCC 1265-1277: the coarse nodes of all nodes and ghost nodes. -/
def coarseNodes? (p : Nat) : Option (List Nat) :=
  (coarseDist? S N g lab).bind fun cdist => (mapping? S N g lab p).bind fun lc => (foreignMapping? S N g lab p).bind
    (gcnodes? (g p) (lab p) lc cdist)

/-- The edges that process `p` sends, GCC 1281-1316. -/
def outEdges? (p : Nat) : Option (List GEdge) :=
  (coarseDist? S N g lab).bind fun cdist => (mapping? S N g lab p).bind fun lc => (foreignMapping? S N g lab p).bind
    (sentEdges? (S p) (g p) (lab p) lc cdist)

/-- The edges that process `p` receives, GCC 1318-1329. -/
def inEdges? (p : Nat) : Option (List GEdge) :=
  (coarseDist? S N g lab).bind fun cdist =>
    (alltoallv? N (outEdges? S N g lab) (fun q => (outEdges? S N g lab q).bind (edgeCounts? (S q) N cdist)) p).bind
      (localizeEdges? (S p) (g p).rank cdist)

/-- The coarse graph on process `p`, without the weights of ghost nodes. -/
def localCoarse? (p : Nat) : Option DGraph :=
  (coarseDist? S N g lab).bind fun cdist => (mapping? S N g lab p).bind fun lc => (coarseNodes? S N g lab p).bind fun gcn =>
    (recvNodes? S N g lab p).bind fun recv => (inEdges? S N g lab p).bind (coarseGraph? (S p) (g p) (lab p) lc cdist gcn recv)

/-- `contract_clustering` on process `me`, GCC 1163-1551: the coarse graph after `update_ghost_node_weights` (GCC 493-516), which is
`syncGhosts?`. -/
def contract? (z : Nat × Int) (ex : Nat → Execution) (shuffle : List (Nat × Int) → List (Nat × Int)) (me : Nat) : Option DGraph :=
  ((List.range N).mapM (localCoarse? S N g lab)).bind fun l => l[me]?.bind fun c =>
    (syncGhosts? N z (fun p => (l[p]?).getD c) ex (fun p u => ((((l[p]?).getD c).nodeWeight? u)).getD 0) c.nodeWeights.length shuffle me).map
      fun arr => { c with nodeWeights := (List.range c.nodeWeights.length).map arr }

/-- `migrated_nodes_sendbuf`, GCC 93-101, with `their_req_to_lcnode`, GCC 810: coarse nodes and blocks; `c` is the coarse graph. -/
def blockAnswers? (c : Nat → DGraph) (cpart : Nat → List Nat) (p : Nat) : Option (List (Nat × Nat)) :=
  (mapping? S N g lab p).bind fun lc => (recvNodes? S N g lab p).bind fun recv => recv.mapM fun x =>
    (lcnode? (g p) lc x.1).bind fun l => (cpart p)[l]?.bind fun b => ((c p).localToGlobal? l).map fun v => (v, b)

/-- `project` on process `me`, GCC 78-147: the blocks of all nodes and ghost nodes.  The first entry of a key in the table counts; the
entries of a key are equal. -/
def project? (c : Nat → DGraph) (cpart : Nat → List Nat) (me : Nat) : Option (List Nat) :=
  (coarseNodes? S N g lab me).bind fun gcn => (reply? N (blockAnswers? S N g lab c cpart) (sentNodeCounts? S N g lab) me).bind fun t =>
    (List.range (g me).totalN).mapM fun l => gcn[l]?.bind fun x => ((c me).isOwnedGlobal? x).bind fun owned =>
      if owned then ((c me).globalToLocal? x).bind fun i => (cpart me)[i]? else t.lookup x

end

end Verif.Dist
