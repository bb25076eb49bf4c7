import Verif.Dist.ColoredLP

/-!
# The distributed label propagation clustering

`kaminpar-dist/coarsening/clustering/lp/global_lp_clusterer.cc` (GLP) and `kaminpar-dist/distributed_label_propagation.h` (DLP).  A cluster is
named by the global ID of a node.  Each process moves its nodes to clusters of their neighbours, chunk by chunk; after each chunk the
processes exchange the weights of clusters and the clusters of the nodes at their borders.

The following is arbitrary, the model covers all possibilities: which nodes of a chunk are visited and in which order (DLP 1023-1078, GLP
338-340), which neighbours are left out (GLP 334-336, DLP 333-337), the order of the entries of a rating map, random bits, what threads
read while other threads change it, and how the weight of a cluster that is too heavy is divided (GLP 513-521, a computation with floating
point numbers).  `none` is undefined behaviour: the weight of a cluster is read that is not in the hash table.

Simplifications: weights of clusters are unbounded integers; each message of `control_cluster_weights` arrives once and the sums do not
depend on the order, so the model adds up all messages; the weights after `synchronize_ghost_node_clusters` are computed after the clusters,
with the clusters before, since there is at most one message for each node.
-/

namespace Verif.Dist
open Verif

/-- The weight limit that is set by `set_max_cluster_weight`, and parts of `GlobalLabelPropagationCoarseningContext`.  `sync` and `enforce`
are the results of GLP 652-662 for the graph.  `share me others new` is the weight that a process stores for a cluster of weight `new` that
is too heavy, GLP 513-521. -/
structure GCConfig where
  limit : Int
  iterations : Nat
  chunks : Nat
  sync : Bool
  enforce : Bool
  merge : Bool
  share : Int → Int → Int → Int

/-- `_max_cluster_weight`, GLP 135-137 and 668: the limit is stored in a 32-bit integer. -/
def GCConfig.bound (cfg : GCConfig) : Int := narrow cfg.limit

/-- The state of a process: the clusters of its nodes and ghost nodes, `_changed_label`, and the weights of clusters, where `none` is
an absent entry of the hash table. -/
structure GCState where
  cluster : Nat → Nat
  changed : Nat → Option Nat
  weight : Nat → Option Int

/-- What a thread reads while it handles a node: what is stored at that moment, or something else if other threads move nodes: for each
neighbour, its cluster or its cluster before it was moved, and arbitrary weights: `weights` while the cluster is selected and `room` when
it is checked for the last time. -/
inductive GCReads where
  | exact
  | stale (old : Nat → Bool) (weights : Nat → Int) (room : Int)

/-- The cluster of a neighbour, DLP 321. -/
def GCReads.view (r : GCReads) (s : GCState) (l : Nat) : Nat :=
  match r with
  | exact => s.cluster l
  | stale old _ _ => if old l then (s.changed l).getD (s.cluster l) else s.cluster l

/-- The weight of the cluster `c` whose stored weight is `x`, DLP 363. -/
def GCReads.weights (r : GCReads) (c : Nat) (x : Int) : Int :=
  match r with
  | exact => x
  | stale _ weights _ => weights c

/-- The weight of the new cluster whose stored weight is `x`, GLP 214. -/
def GCReads.room (r : GCReads) (x : Int) : Int :=
  match r with
  | exact => x
  | stale _ _ room => room

/-- A call of `handle_node`. -/
structure GCVisit where
  node : Nat
  keep : Nat → Bool
  order : List Nat → List Nat
  coin : Nat → Bool
  reads : GCReads

/-- `move_cluster_weight` after its check, GLP 218-245: both clusters must be known. -/
def moveWeight? (wt : Nat → Option Int) (a b : Nat) (w : Int) : Option (Nat → Option Int) :=
  (wt a).bind fun x => (upd wt a (some (x - w)) b).map fun y => upd (upd wt a (some (x - w))) b (some (y + w))

/-- `change_cluster_weight`, GLP 248-265. -/
def changeWeight (wt : Nat → Option Int) (c : Nat) (x : Int) : Nat → Option Int := upd wt c (some ((wt c).getD 0 + x))

/-- One entry of the rating map: a cluster, its rating and its weight, DLP 360-375 with GLP 322-328; the state is `best_gain` and
`best_cluster`. -/
def gcPick (bound : Int) (own : Nat) (w : Int) (coin : Nat → Bool) (s : Int × Nat) (e : Nat × Int × Int) : Int × Nat :=
  if (e.2.1 > s.1 ∨ (e.2.1 = s.1 ∧ coin e.1 = true)) ∧ (e.2.2 + w ≤ bound ∨ e.1 = own) then (e.2.1, e.1) else s

/-- `handle_node`, DLP 237-267, with `find_best_cluster`, DLP 294-394, and `move_node`, GLP 280-283; the second component counts the
moved nodes. -/
def gcVisit? (cfg : GCConfig) (g : DGraph) (s : GCState × Nat) (v : GCVisit) : Option (GCState × Nat) :=
  (g.adjacent? v.node).bind fun adj =>
  (g.nodeWeight? v.node).bind fun w =>
  let own := s.1.cluster v.node
  let near := adj.filter fun x => v.keep x.1
  let view := v.reads.view s.1
  (s.1.weight own).bind fun _ =>
  ((v.order (near.map fun x => view x.1).dedup).mapM fun b =>
    (s.1.weight b).bind fun x => (rating? near view b).map fun r => (b, r, v.reads.weights b x)).bind fun entries =>
  let b := (entries.foldl (gcPick cfg.bound own w v.coin) (0, own)).2
  if b = own then some s
  else (s.1.weight b).bind fun x =>
    if v.reads.room x + w > cfg.bound then some s
    else (moveWeight? s.1.weight own b w).map fun wt => (⟨upd s.1.cluster v.node b, upd s.1.changed v.node (some own), wt⟩, s.2 + 1)

/-- The foreign clusters that nodes left or joined, GLP 415-442: the keys of `_weight_deltas`. -/
def gcKeys (g : DGraph) (fr ub : Nat) (s : GCState) : List Nat :=
  (((List.range' fr (ub - fr)).flatMap fun u => match s.changed u with
    | none => []
    | some o => [o, s.cluster u]).filter fun c => decide (g.isOwnedGlobal? c = some false)).dedup

/-- The change of the weight of the cluster `c`, GLP 415-442. -/
def gcDelta (g : DGraph) (fr ub : Nat) (s : GCState) (c : Nat) : Int :=
  ((List.range' fr (ub - fr)).map fun u => match s.changed u with
    | none => 0
    | some o => (if s.cluster u = c then (g.nodeWeight? u).getD 0 else 0) - (if o = c then (g.nodeWeight? u).getD 0 else 0)).sum

/-- One iteration of the loop that enforces the limit, GLP 542-554; `room u` replaces the weight that is read. -/
def gcEnforce? (cfg : GCConfig) (g : DGraph) (room : Nat → Option Int) (s : GCState) (u : Nat) : Option GCState :=
  match s.changed u with
  | none => some s
  | some o =>
    (s.weight (s.cluster u)).bind fun x =>
    if (room u).getD x > cfg.bound then
      (g.nodeWeight? u).bind fun w =>
      (moveWeight? s.weight (s.cluster u) o w).map fun wt => ⟨upd s.cluster u o, upd s.changed u (some (s.cluster u)), wt⟩
    else some s

/-- The weights of clusters on process `q` after it has handled the messages of all processes, GLP 476-481. -/
def gcTotal (N : Nat) (g : Nat → DGraph) (fr ub : Nat → Nat) (s : Nat → GCState) (q c : Nat) : Option Int :=
  if (g q).isOwnedGlobal? c = some true then
    ((s q).weight c).map fun x => x + ((List.range N).map fun p => if c ∈ gcKeys (g p) (fr p) (ub p) (s p) then
      gcDelta (g p) (fr p) (ub p) (s p) c else 0).sum
  else (s q).weight c

/-- The weight that process `p` stores for a cluster, GLP 499-525: `r` is the cluster, the weight at the owner and the weight before. -/
def gcStore (cfg : GCConfig) (delta : Nat → Int) (wt : Nat → Option Int) (r : Nat × Int × Int) : Nat → Option Int :=
  upd wt r.1 (some (if r.2.1 > cfg.bound then cfg.share (delta r.1) (r.2.1 - r.2.2) r.2.1 else r.2.1))

/-- `control_cluster_weights`, GLP 397-556, on process `p`. -/
def gcControl? (N : Nat) (cfg : GCConfig) (g : Nat → DGraph) (fr ub : Nat → Nat) (room : Nat → Nat → Option Int) (s : Nat → GCState) (p : Nat) :
    Option GCState :=
  ((gcKeys (g p) (fr p) (ub p) (s p)).mapM fun c =>
    (gcTotal N g fr ub s ((g p).findOwner c) c).bind fun new => ((s p).weight c).map fun old => (c, new, old)).bind fun resps =>
  let t : GCState := { s p with
    weight := resps.foldl (gcStore cfg (gcDelta (g p) (fr p) (ub p) (s p))) (gcTotal N g fr ub s p) }
  if cfg.enforce && resps.any fun r => decide (r.2.1 > cfg.bound) then
    (List.range' (fr p) (ub p - fr p)).foldlM (gcEnforce? cfg (g p) (room p)) t
  else some t

/-- A message `(pe, owner_lnode, new_gcluster)` changes the weights of clusters, GLP 573-602; `keys` are the keys of `_weight_deltas` and
`cluster` are the clusters before. -/
def gcNotice (sync : Bool) (keys : List Nat) (g : DGraph) (cluster : Nat → Nat) (wt : Nat → Option Int) (m : Nat × Nat × Nat) : Nat → Option Int :=
  match g.mapRemote? m.2.1 m.1 with
  | none => wt
  | some l =>
    let w := (g.nodeWeight? l).getD 0
    let a := if sync && decide (cluster l ∈ keys) then wt else changeWeight wt (cluster l) (-w)
    if sync && decide (m.2.2 ∈ keys) then a else changeWeight a m.2.2 w

/-- `synchronize_ghost_node_clusters`, GLP 558-609, on process `me`. -/
def gcSync? (N : Nat) (cfg : GCConfig) (g : Nat → DGraph) (fr ub : Nat → Nat) (keys : Nat → List Nat) (sch : SyncSchedule) (s : Nat → GCState)
    (me : Nat) : Option GCState :=
  (exchange? N (0, 0) (fun p => sendBuffers? (sch.exec p).threads N
    (fun i => toPeMessages? (g p) (fun _ => ((s p).changed i).isSome) (fun u _ => (u, (s p).cluster u)) i)
    (sch.exec p).count (sch.exec p).fill) me).bind fun calls =>
  (receive? (g me) (g me).totalN (sch.shuffle me) calls (s me).cluster).map fun cl =>
    ⟨cl, fun u => if fr me ≤ u ∧ u < ub me then none else (s me).changed u,
      (calls.flatMap fun c => (sch.shuffle me c.2).map fun m => (c.1, m)).foldl (gcNotice cfg.sync (keys me) (g me) (s me).cluster) (s me).weight⟩

/-- A thread looks at a node in `cluster_isolated_nodes`: `reload` is set at the start of a range of nodes; `read` and the content of `reload`
replace the weights that are read. -/
structure MergeEvent where
  thread : Nat
  node : Nat
  reload : Option (Option Int)
  read : Option Int

/-- `current`, `current_cluster` and `current_weight` of a thread. -/
abbrev MergeCursor := Option (Nat × Nat × Int)

/-- The start of a range, GLP 624-628. -/
def mergeReload? (s : GCState) (cur : MergeCursor) (reload : Option (Option Int)) : Option MergeCursor :=
  match reload, cur with
  | some r, some (u, _, _) => (s.weight (s.cluster u)).map fun x => some (u, s.cluster u, r.getD x)
  | _, _ => some cur

/-- One iteration of the loop, GLP 630-646. -/
def mergeStep? (cfg : GCConfig) (g : DGraph) (s : GCState × (Nat → MergeCursor)) (e : MergeEvent) : Option (GCState × (Nat → MergeCursor)) :=
  (g.adjacent? e.node).bind fun adj =>
  (mergeReload? s.1 (s.2 e.thread) e.reload).bind fun cur =>
  if adj = [] then
    (s.1.weight (s.1.cluster e.node)).map fun x =>
    match cur with
    | none => (s.1, upd s.2 e.thread (some (e.node, s.1.cluster e.node, e.read.getD x)))
    | some (u, c, y) =>
      if y + e.read.getD x ≤ cfg.bound then
        (⟨upd s.1.cluster e.node c, s.1.changed, changeWeight s.1.weight c (e.read.getD x)⟩, upd s.2 e.thread (some (u, c, y + e.read.getD x)))
      else (s.1, upd s.2 e.thread (some (e.node, s.1.cluster e.node, e.read.getD x)))
  else some (s.1, upd s.2 e.thread cur)

/-- `cluster_isolated_nodes`, GLP 618-650. -/
def gcMerge? (cfg : GCConfig) (g : DGraph) (events : List MergeEvent) (s : GCState) : Option GCState :=
  (events.foldlM (mergeStep? cfg g) (s, fun _ => none)).map (·.1)

/-- What is arbitrary while one chunk is handled. -/
structure GCSchedule where
  visits : Nat → List GCVisit
  room : Nat → Nat → Option Int
  sync : SyncSchedule
  events : Nat → List MergeEvent

/-- An unused state. -/
def GCState.zero : GCState := ⟨fun _ => 0, fun _ => none, fun _ => none⟩

/-- `process_chunk`, GLP 349-370, on all processes: the number of moved nodes and the state afterwards. -/
def gcChunk? (N : Nat) (cfg : GCConfig) (g : Nat → DGraph) (sch : GCSchedule) (c : Nat) (s : Nat → GCState) : Option (Nat × (Nat → GCState)) :=
  (forAll? N (0, 0) fun p => Math.localRange? (g p).n cfg.chunks c).bind fun range =>
  (forAll? N (GCState.zero, 0) fun p => (sch.visits p).foldlM (gcVisit? cfg (g p)) (s p, 0)).bind fun t =>
  let moved := ((List.range N).map fun p => (t p).2).sum
  let fr : Nat → Nat := fun p => (range p).1
  let ub : Nat → Nat := fun p => (range p).2
  let t' : Nat → GCState := fun p => (t p).1
  (if cfg.sync then forAll? N GCState.zero (gcControl? N cfg g fr ub sch.room t') else some t').bind fun a =>
  (if moved > 0 then forAll? N GCState.zero (gcSync? N cfg g fr ub (fun p => gcKeys (g p) (fr p) (ub p) (t' p)) sch.sync a) else some a).bind fun b =>
  (if cfg.merge then forAll? N GCState.zero fun p => gcMerge? cfg (g p) (sch.events p) (b p) else some b).map fun r => (moved, r)

/-- The loop over the chunks, GLP 152-155, `m` further ones. -/
def gcChunks? (N : Nat) (cfg : GCConfig) (g : Nat → DGraph) (sch : Nat → GCSchedule) :
    Nat → Nat → Nat × (Nat → GCState) → Option (Nat × (Nat → GCState))
  | 0, _, s => some s
  | m + 1, c, s => (gcChunk? N cfg g (sch c) c s.2).bind fun r => gcChunks? N cfg g sch m (c + 1) (s.1 + r.1, r.2)

/-- The loop over the iterations, GLP 150-159, `m` further ones. -/
def gcIterations? (N : Nat) (cfg : GCConfig) (g : Nat → DGraph) (sch : Nat → Nat → GCSchedule) : Nat → Nat → (Nat → GCState) → Option (Nat → GCState)
  | 0, _, s => some s
  | m + 1, t, s => (gcChunks? N cfg g (sch t) cfg.chunks 0 (0, s)).bind fun r =>
      if r.1 = 0 then some r.2 else gcIterations? N cfg g sch m (t + 1) r.2

/-- The state at the beginning, DLP 711-736 with GLP 172-192 and 390-395: each node is a cluster. -/
def gcStart (g : DGraph) : GCState :=
  ⟨fun l => (g.localToGlobal? l).getD 0, fun _ => none, fun c => (g.globalToLocal? c).bind g.nodeWeight?⟩

/-- `compute_clustering`, GLP 139-160: the state of each process at the end. -/
def globalLP? (N : Nat) (cfg : GCConfig) (g : Nat → DGraph) (sch : Nat → Nat → GCSchedule) : Option (Nat → GCState) :=
  gcIterations? N cfg g sch cfg.iterations 0 fun p => gcStart (g p)

end Verif.Dist
