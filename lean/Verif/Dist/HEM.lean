import Verif.Dist.ColoredLP

/-!
# The heavy edge matching clusterer

`kaminpar-dist/coarsening/clustering/hem/hem_clusterer.cc` (HEM).  The nodes are visited colour by colour.  A node that is not matched yet
chooses the neighbour with the heaviest edge among those that are not matched; the cluster of both gets the global ID of the neighbour.  If
the neighbour belongs to another process, this process is asked, and it accepts at most one request for each node.

The colours are sorted as in `colorOrder?`: HEM 84-157 are the same as the lines of the coloured label propagation refiner.  The blacklist of
small colours, HEM 159-200, is computed but never read.

Threads: a node is handled in one atomic step, at the time of its compare-and-swap, HEM 248-258.  Entries of the matching only change from
unmatched to matched in this loop, so a thread may have read that a neighbour is unmatched although it is matched now, but not the
other way round: `stale`.  The compare-and-swap is weak, it may fail without a reason: `fail`.  Sums of two node weights are unbounded
integers.
-/

namespace Verif.Dist
open Verif

/-- `kInvalidGlobalNodeID`. -/
def invalidG : Nat := 2 ^ 64 - 1

/-- `kInvalidNodeID`. -/
def invalidN : Nat := 2 ^ 32 - 1

/-- The weight limit and `HEMCoarseningContext::ignore_weight_limit`. -/
structure HEMConfig where
  limit : Int
  ignoreLimit : Bool

/-- One iteration of the loop of `compute_local_matching`. -/
structure HEMVisit where
  node : Nat
  stale : Nat → Bool
  fail : Bool

/-- One neighbour, HEM 222-242; the state is `best_neighbor` and `best_weight`. -/
def hemPick? (cfg : HEMConfig) (g : DGraph) (m : Nat → Nat) (stale : Nat → Bool) (uw : Int) (s x : Nat × Int) : Option (Nat × Int) :=
  if m x.1 ≠ invalidG ∧ stale x.1 = false then some s
  else (g.nodeWeight? x.1).map fun vw => if (uw + vw > cfg.limit ∧ cfg.ignoreLimit = false) ∨ x.2 < s.2 then s else x

/-- One iteration of the loop of `compute_local_matching`, HEM 210-261; `m` is `_matching`. -/
def hemVisit? (cfg : HEMConfig) (g : DGraph) (m : Nat → Nat) (v : HEMVisit) : Option (Nat → Nat) :=
  if m v.node ≠ invalidG then some m
  else (g.nodeWeight? v.node).bind fun uw => (g.adjacent? v.node).bind fun adj =>
    (adj.foldlM (hemPick? cfg g m v.stale uw) (0, 0)).bind fun best =>
      if best.2 > 0 then (g.localToGlobal? best.1).map fun t =>
        if m best.1 = invalidG ∧ v.fail = false then upd (upd m best.1 t) v.node t else m
      else some m

/-- `MatchRequest`, HEM 265-269, with the process that sent it. -/
structure MatchRequest where
  pe : Nat
  mine : Nat
  theirs : Nat
  weight : Int

/-- The requests that process `q` receives for the colour `c`, HEM 275-289, with the roles of `mine` and `theirs` swapped, HEM 292. -/
def hemRequests? (N : Nat) (ord : ColorOrder) (g : Nat → DGraph) (m : Nat → Nat → Nat) (ex : Nat → Execution) (q : Nat) :
    Option (List MatchRequest) :=
  (exchange? N (0, 0, 0) (fun p => sendBuffers? (ex p).threads N (fun i => toGhostMessages? (g p)
      (fun u v _ => decide ((g p).localToGlobal? v = some (m p u)))
      (fun u v w pe => (u, ((g p).localToGlobal? v).getD 0 - (g p).dist.getD pe 0, w)) (ord.node p i)) (ex p).count (ex p).fill) q).map
    fun calls => calls.flatMap fun c => c.2.map fun r : Nat × Nat × Int => ⟨c.1, r.2.1, r.1, r.2.2⟩

/-- A node that is matched rejects requests, HEM 294-296. -/
def hemReject (m : Nat → Nat) (r : MatchRequest) : MatchRequest := if m r.mine ≠ invalidG then { r with mine := invalidN } else r

/-- The ghost node of the process that sent the request, HEM 300-305. -/
def hemLocate? (g : DGraph) (r : MatchRequest) : Option MatchRequest :=
  if r.mine = invalidN then some r else (g.mapRemote? r.theirs r.pe).map fun l => { r with theirs := l }

/-- The compare-and-swap of a request, HEM 308-325: the weight of the edge is stored in the upper half of the entry of the node.  The loop
is repeated if the compare-and-swap succeeds, and then it fails, because the entry has changed and never changes back; it ends if the
compare-and-swap fails, for whatever reason (`true`), even if the edge is heavier. -/
def hemPropose (m : Nat → Nat) (e : MatchRequest × Bool) : Nat → Nat :=
  if e.1.mine = invalidN ∨ e.2 = true ∨ e.1.weight ≤ (if m e.1.mine = invalidG then 0 else ((m e.1.mine / 2 ^ 32 : Nat) : Int)) then m
  else upd m e.1.mine (e.1.weight.toNat * 2 ^ 32 + e.1.theirs)

/-- The response, HEM 329-342. -/
def hemAnswer? (g : DGraph) (m : Nat → Nat) (r : MatchRequest) : Option MatchRequest :=
  if r.mine = invalidN then some r
  else (g.localToGlobal? r.theirs).map fun v =>
    { r with mine := if r.theirs ≠ m r.mine % 2 ^ 32 then invalidN else r.mine, theirs := v - g.dist.getD r.pe 0 }

/-- The node is the leader of its cluster, HEM 345-351. -/
def hemAccept? (g : DGraph) (m : Nat → Nat) (r : MatchRequest) : Option (Nat → Nat) :=
  if r.mine = invalidN then some m else (g.localToGlobal? r.mine).map fun v => upd m r.mine v

/-- The requests on one process, HEM 291-351: the responses and the matching.  `order` is the order of the steps of the threads. -/
def hemResolve? (g : DGraph) (order : List MatchRequest → List (MatchRequest × Bool)) (rs : List MatchRequest) (m : Nat → Nat) :
    Option (List MatchRequest × (Nat → Nat)) :=
  ((rs.map (hemReject m)).mapM (hemLocate? g)).bind fun located =>
    (located.mapM (hemAnswer? g ((order located).foldl hemPropose m))).bind fun answers =>
      (answers.foldlM (hemAccept? g) ((order located).foldl hemPropose m)).map fun m' => (answers, m')

/-- A response, HEM 357-364. -/
def hemRespond (m : Nat → Nat) (r : MatchRequest) : Nat → Nat := if r.mine = invalidN then upd m r.theirs invalidG else m

/-- The nodes whose entries are sent for the node `u` of the colour, HEM 394-407. -/
def hemActive? (g : DGraph) (m : Nat → Nat) (u : Nat) : Option (List Nat) :=
  if m u = invalidG then some []
  else (g.isOwnedGlobal? (m u)).bind fun b =>
    if b = true then (g.globalToLocal? (m u)).map fun l => if u ≠ l then [u, l] else [u] else some [u]

/-- The nodes whose entries are sent, HEM 394-415. -/
def hemNodes? (g : DGraph) (active : List Nat) (m : Nat → Nat) (answers : List MatchRequest) : Option (List Nat) :=
  (active.mapM (hemActive? g m)).map fun l => l.flatten ++ (answers.filter fun r => decide (r.mine ≠ invalidN)).map (·.mine)

/-- The messages, each with its destination, HEM 376-392. -/
def hemMessages? (g : DGraph) (nodes : List Nat) (m : Nat → Nat) : Option (List (Nat × Nat × Nat)) :=
  (nodes.mapM (toPeMessages? g (fun _ => true) fun u _ => (u, m u))).map List.flatten

/-- What the threads do for one colour. -/
structure HEMSchedule where
  visits : Nat → List HEMVisit
  ex : Nat → Execution
  order : Nat → List MatchRequest → List (MatchRequest × Bool)
  shuffle : Nat → List (Nat × Nat) → List (Nat × Nat)

/-- One colour: `compute_local_matching` and `resolve_global_conflicts`, HEM 69-70 and 206-430.  The responses are written to their nodes in the order of
the processes; responses for the same node write the same. -/
def hemColor? (N : Nat) (cfg : HEMConfig) (g : Nat → DGraph) (ord : ColorOrder) (sch : Nat → HEMSchedule) (m : Nat → Nat → Nat) (c : Nat) :
    Option (Nat → Nat → Nat) :=
  (forAll? N (fun _ => 0) fun p => ((sch c).visits p).foldlM (hemVisit? cfg (g p)) (m p)).bind fun m1 =>
  (forAll? N [] (hemRequests? N ord g m1 (sch c).ex)).bind fun rq =>
  (forAll? N ([], fun _ => 0) fun q => hemResolve? (g q) ((sch c).order q) (rq q) (m1 q)).bind fun res =>
  let m3 : Nat → Nat → Nat := fun p => (((List.range N).flatMap fun q => (res q).1).filter fun r => decide (r.pe = p)).foldl hemRespond (res p).2
  (forAll? N [] fun p => hemNodes? (g p)
    ((List.range' (ord.start p c) (ord.start p (c + 1) - ord.start p c)).map (ord.node p)) (m3 p) (res p).1).bind fun nodes =>
  (forAll? N [] fun p => hemMessages? (g p) (nodes p) (m3 p)).bind fun msgs =>
  forAll? N (fun _ => 0) fun p => receive? (g p) (g p).totalN ((sch c).shuffle p)
    ((List.range N).map fun q => (q, (msgs q).filterMap fun x => if x.1 = p then some x.2 else none)) (m3 p)

/-- Nodes that are not matched are clusters on their own, HEM 73-77. -/
def hemSingle? (g : DGraph) (m : Nat → Nat) : Option (List Nat) :=
  (List.range g.totalN).mapM fun l => if m l = invalidG then g.localToGlobal? l else some (m l)

/-- `HEMClustererImpl::cluster`, HEM 56-80, after the initialization of the colours: the clusters of the nodes of all processes. -/
def hemCluster? (N : Nat) (cfg : HEMConfig) (g : Nat → DGraph) (ord : ColorOrder) (sch : Nat → HEMSchedule) : Option (Nat → List Nat) :=
  ((List.range ord.colors).foldlM (hemColor? N cfg g ord sch) fun _ _ => invalidG).bind fun m =>
    forAll? N [] fun p => hemSingle? (g p) (m p)

end Verif.Dist
