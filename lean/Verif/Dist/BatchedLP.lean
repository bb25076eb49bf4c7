import Verif.Dist.ColoredLP

/-!
# The label propagation refiner

`kaminpar-dist/refinement/lp/lp_refiner.cc` (LP) and `kaminpar-dist/distributed_label_propagation.h` (DLP).  The nodes of each process are
split into chunks.  For each chunk, every process first computes new blocks for its nodes, without telling the other processes; then the
moves are executed, perhaps only some of them, and the new blocks are sent to the other processes.

What is not modelled: the gains of the moves, which are only used for the probabilities (LP 255-271; which moves are tried is arbitrary in
the model), the active set and the order in which nodes are visited (DLP 1023-1078; the visited nodes are an arbitrary list of nodes of
the chunk), the limit on the number of neighbours (never set, LP 65-70), and the statistics.  Block weights are unbounded integers.

The state of a process is that of `ColoredLP.lean`: `part` and `weights` are the partition (`_p_graph`), `next` is `_next_partition`, where
`none` is `kInvalidBlockID`; its other fields are not used.
-/

namespace Verif.Dist
open Verif

/-- The number of blocks, their weight limits, and `LabelPropagationRefinementContext`, `dkaminpar.h:190-198`. -/
structure BatchConfig where
  k : Nat
  limit : Nat → Int
  iterations : Nat
  chunks : Nat
  attempts : Nat
  ignoreProbabilities : Bool

/-- The state of one process; `tracked` is `_block_weights`. -/
structure BatchState where
  loc : LPLocal
  tracked : Nat → Int

/-- What a thread reads while it handles a node: what is stored at that moment, or, if other threads move nodes at the same time, something
else: `view` are the blocks of its neighbours, `weights` the block weights while the block is selected (DLP 363) and `room` the weight of
the selected block when it is checked for the last time (LP 433). -/
inductive Reads where
  | exact
  | stale (view : Nat → Nat) (weights : Nat → Int) (room : Int)

/-- The blocks of the neighbours that are read, DLP 321. -/
def Reads.view : Reads → (Nat → Nat) → Nat → Nat
  | exact, cluster => cluster
  | stale view _ _, _ => view

/-- The block weights that are read, DLP 363. -/
def Reads.weights : Reads → (Nat → Int) → Nat → Int
  | exact, tracked => tracked
  | stale _ weights _, _ => weights

/-- The weight of the block `b` that is read, LP 433. -/
def Reads.room : Reads → (Nat → Int) → Nat → Int
  | exact, tracked, b => tracked b
  | stale _ _ room, _, _ => room

/-- A call of `handle_node`: the node, the order of the entries of the rating map, the random bits and what is read. -/
structure Visit where
  node : Nat
  order : List Nat → List Nat
  coin : Nat → Bool
  reads : Reads

/-- `cluster`, LP 404-407; an invalid block is not smaller than `k`. -/
def batchCluster (k n : Nat) (s : LPLocal) (l : Nat) : Nat := if l < n then (s.next l).getD k else s.part l

/-- `accept_cluster`, LP 441-454, and its use, DLP 360-375, for one entry of the rating map; the state is `best_gain` and `best_cluster`. -/
def batchPick (cfg : BatchConfig) (own : Nat) (ownRating : Int) (weights : Nat → Int) (w : Int) (coin : Nat → Bool) (s : Int × Nat)
    (e : Nat × Int) : Int × Nat :=
  if (e.2 - ownRating > s.1 ∨ (e.2 - ownRating = s.1 ∧ coin e.1 = true)) ∧ (weights e.1 + w < cfg.limit e.1 ∨ e.1 = own) then
    (e.2 - ownRating, e.1)
  else s

/-- `handle_node`, DLP 237-267, with `find_best_cluster`, DLP 294-394, and `move_cluster_weight`, LP 430-439; the second component counts
the moved nodes. -/
def batchVisit? (cfg : BatchConfig) (g : DGraph) (s : BatchState × Nat) (v : Visit) : Option (BatchState × Nat) :=
  (g.adjacent? v.node).bind fun adj =>
  (g.nodeWeight? v.node).bind fun w =>
  let own := batchCluster cfg.k g.n s.1.loc v.node
  let view := v.reads.view (batchCluster cfg.k g.n s.1.loc)
  ((v.order (adj.map fun x => view x.1).dedup).mapM fun b =>
    if b < cfg.k then (rating? adj view b).map fun r => (b, r) else none).bind fun entries =>
  (rating? adj view own).map fun r =>
    let b := (entries.foldl (batchPick cfg own r (v.reads.weights s.1.tracked) w v.coin) (0, own)).2
    if b ≠ own ∧ v.reads.room s.1.tracked b + w ≤ cfg.limit b then
      (⟨{ s.1.loc with next := upd s.1.loc.next v.node (some b) }, bump (bump s.1.tracked b w) own (-w)⟩, s.2 + 1)
    else s

/-- Whether no block becomes too heavy, LP 298-307. -/
def batchFeasible (cfg : BatchConfig) (weights total : Nat → Int) : Bool :=
  cfg.ignoreProbabilities ||
    (List.range cfg.k).all fun b => !(decide (weights b + total b > cfg.limit b) && decide (total b > 0))

/-- `perform_moves`, LP 224-339, on all processes for the nodes `fr p, …, ub p - 1`: whether the moves were kept.  If some but not all
processes keep them, they do not agree on what to do next. -/
def batchMoves? (N : Nat) (cfg : BatchConfig) (g : Nat → DGraph) (fr ub : Nat → Nat) (flip : Nat → Nat → Bool) (s : Nat → BatchState) :
    Option (Bool × (Nat → BatchState)) :=
  (forAll? N ⟨LPLocal.zero, fun _ => 0, [], 0⟩ fun p =>
    (List.range' (fr p) (ub p - fr p)).foldlM (tryMove? (g p) (fun u => u) fun u => cfg.ignoreProbabilities || flip p u)
      ⟨(s p).loc, fun _ => 0, [], 0⟩).bind fun at_ =>
  let total : Nat → Int := fun b => ((List.range N).map fun p => (at_ p).deltas b).sum
  let ok : Nat → Bool := fun p => batchFeasible cfg (at_ p).loc.weights total
  if (List.range N).all ok then
    some (true, fun p => ⟨{ (at_ p).loc with weights := fun b => (at_ p).loc.weights b + total b }, fun b => (at_ p).loc.weights b + total b⟩)
  else if (List.range N).all fun p => !ok p then
    some (false, fun p => ⟨rollback (fun u => u) (at_ p).loc (at_ p).moves, (at_ p).loc.weights⟩)
  else none

/-- The loop over the attempts, LP 204-209: `m` further attempts. -/
def batchAttempts? (N : Nat) (cfg : BatchConfig) (g : Nat → DGraph) (fr ub : Nat → Nat) (flip : Nat → Nat → Nat → Bool) :
    Nat → Nat → (Nat → BatchState) → Option (Nat → BatchState)
  | 0, _, s => some s
  | m + 1, t, s => (batchMoves? N cfg g fr ub (flip t) s).bind fun r =>
      if r.1 then some r.2 else batchAttempts? N cfg g fr ub flip m (t + 1) r.2

/-- What is arbitrary while one chunk is handled. -/
structure ChunkSchedule where
  visits : Nat → List Visit
  flip : Nat → Nat → Nat → Bool
  sync : SyncSchedule

/-- `process_chunk`, LP 139-222, on all processes: the number of moved nodes and the state afterwards. -/
def batchChunk? (N : Nat) (cfg : BatchConfig) (g : Nat → DGraph) (sch : ChunkSchedule) (c : Nat) (s : Nat → BatchState) :
    Option (Nat × (Nat → BatchState)) :=
  (forAll? N (0, 0) fun p => Math.localRange? (g p).n cfg.chunks c).bind fun range =>
  (forAll? N (⟨LPLocal.zero, fun _ => 0⟩, 0) fun p => (sch.visits p).foldlM (batchVisit? cfg (g p)) (s p, 0)).bind fun t =>
  let moved := ((List.range N).map fun p => (t p).2).sum
  if moved = 0 then some (0, fun p => (t p).1)
  else
    (batchAttempts? N cfg g (fun p => (range p).1) (fun p => (range p).2) sch.flip cfg.attempts 0 fun p => (t p).1).bind fun a =>
    (forAll? N ⟨LPLocal.zero, fun _ => 0⟩ fun p => (lpSync? N g (fun _ u => u) sch.sync (fun q => (a q).loc) p).map fun part =>
      (⟨resetNext (fun u => u) (range p).1 (range p).2 { (a p).loc with part := part }, (a p).tracked⟩ : BatchState)).map fun r => (moved, r)

/-- The loop over the chunks, LP 124-127, `m` further ones. -/
def batchChunks? (N : Nat) (cfg : BatchConfig) (g : Nat → DGraph) (sch : Nat → ChunkSchedule) :
    Nat → Nat → Nat × (Nat → BatchState) → Option (Nat × (Nat → BatchState))
  | 0, _, s => some s
  | m + 1, c, s => (batchChunk? N cfg g (sch c) c s.2).bind fun r => batchChunks? N cfg g sch m (c + 1) (s.1 + r.1, r.2)

/-- The loop over the iterations, LP 121-132, `m` further ones. -/
def batchIterations? (N : Nat) (cfg : BatchConfig) (g : Nat → DGraph) (sch : Nat → Nat → ChunkSchedule) :
    Nat → Nat → (Nat → BatchState) → Option (Nat → BatchState)
  | 0, _, s => some s
  | m + 1, t, s => (batchChunks? N cfg g (sch t) cfg.chunks 0 (0, s)).bind fun r =>
      if r.1 = 0 then some r.2 else batchIterations? N cfg g sch m (t + 1) r.2

/-- `refine`, LP 92-136, with `reset_state`, DLP 711-736: what the processes know of the partition is `part` and `weights`. -/
def batchRefine? (N : Nat) (cfg : BatchConfig) (g : Nat → DGraph) (sch : Nat → Nat → ChunkSchedule) (part : Nat → Nat → Nat)
    (weights : Nat → Nat → Int) : Option (Nat → BatchState) :=
  batchIterations? N cfg g sch cfg.iterations 0 fun p =>
    ⟨⟨part p, weights p, fun u => some (part p u), fun _ => 0, fun _ => 0, 0⟩, weights p⟩

end Verif.Dist
