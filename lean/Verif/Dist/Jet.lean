import Verif.Dist.Cut
import Verif.Util

/-!
# Model of the distributed Jet refiner and its snapshots

Sources: `kaminpar-dist/refinement/jet/jet_refiner.cc` (DJ), `kaminpar-dist/refinement/snapshooter.cc` (SN),
`kaminpar-dist/datastructures/distributed_partitioned_graph.h` (DPH).

The gain calculator and the test with the negative gain factor (a floating-point comparison), DJ 250-257, are arbitrary functions
`best` and `accept` of the nodes: the model covers all of them.  Loops over nodes whose iterations only write their own entry are
functions of the node.  Block weights are 64-bit integers that are changed with wrapping atomic operations; the model uses
unbounded integers.  The balancer, DJ 172-173, is not a part of the model of an iteration.
-/

namespace Verif.Dist
open Verif

/-- `find_moves`, DJ 241-265: the gain and the target of each node of the process. -/
def findMoves (n : Nat) (part : Nat → Nat) (locked : Nat → Bool) (best : Nat → Int × Nat) (accept : Nat → Bool)
    (cand : Nat → Int × Nat) : Nat → Int × Nat := fun u =>
  if u < n then
    if locked u then (0, part u)
    else if (best u).2 ≠ part u ∧ accept u = true then best u
    else (0, part u)
  else cand u

/-- The first loop of `synchronize_ghost_node_move_candidates`, DJ 329-331. -/
def resetGhosts (n : Nat) (part : Nat → Nat) (cand : Nat → Int × Nat) : Nat → Int × Nat := fun l =>
  if n ≤ l then (0, part l) else cand l

/-- The nodes whose candidates are sent, DJ 342. -/
def isCandidate (part : Nat → Nat) (cand : Nat → Int × Nat) (u : Nat) : Bool := decide ((cand u).2 ≠ part u)

/-- The block in which the neighbour `v` of `u` is expected, DJ 284-286. -/
def projectedBlock (part : Nat → Nat) (cand : Nat → Int × Nat) (u v : Nat) : Nat :=
  if (cand v).1 > (cand u).1 ∨ ((cand v).1 = (cand u).1 ∧ v < u) then (cand v).2 else part v

/-- What the edge to `v` adds to the projected gain of `u`, DJ 288-292. -/
def gainTerm (part : Nat → Nat) (cand : Nat → Int × Nat) (u : Nat) (x : Nat × Int) : Int :=
  if projectedBlock part cand u x.1 = (cand u).2 then x.2
  else if projectedBlock part cand u x.1 = part u then -x.2
  else 0

/-- The body of `filter_bad_moves`, DJ 271-302, for one node: whether it is locked.  `projected_gain` is a 32-bit integer. -/
def filterNode? (g : DGraph) (part : Nat → Nat) (cand : Nat → Int × Nat) (u : Nat) : Option Bool :=
  if part u = (cand u).2 then some false
  else (g.adjacent? u).bind fun l => ((l.map (gainTerm part cand u)).foldlM (add? B32) 0).map fun s => decide (0 ≤ s)

/-- `filter_bad_moves`, DJ 267-304. -/
def filterMoves? (g : DGraph) (part : Nat → Nat) (cand : Nat → Int × Nat) : Option (Nat → Bool) :=
  ((List.range g.n).mapM (filterNode? g part cand)).map fun l u => l.getD u false

/-- Adds to an entry. -/
def bump (f : Nat → Int) (b : Nat) (x : Int) : Nat → Int := upd f b (f b + x)

/-- The body of `move_locked_nodes`, DJ 310-322, for one node; the state is the partition and the changes of the block weights.
A block out of range is an access out of bounds. -/
def moveNode? (g : DGraph) (k : Nat) (locked : Nat → Bool) (cand : Nat → Int × Nat) (s : (Nat → Nat) × (Nat → Int)) (u : Nat) :
    Option ((Nat → Nat) × (Nat → Int)) :=
  if locked u then
    (g.nodeWeight? u).bind fun w =>
      if s.1 u < k ∧ (cand u).2 < k then
        some (upd s.1 u (cand u).2, bump (bump s.2 (s.1 u) (-w)) (cand u).2 w)
      else none
  else some s

/-- `move_locked_nodes`, DJ 306-323: `order` is the order in which the threads execute the moves of the nodes. -/
def moveLocked? (g : DGraph) (k : Nat) (locked : Nat → Bool) (cand : Nat → Int × Nat) (order : List Nat) (part : Nat → Nat) :
    Option ((Nat → Nat) × (Nat → Int)) :=
  order.foldlM (moveNode? g k locked cand) (part, fun _ => 0)

/-- `apply_block_weight_deltas`, DJ 388-403: all processes add up their changes. -/
def applyDeltas (N : Nat) (deltas : Nat → Nat → Int) (weights : Nat → Int) : Nat → Int := fun b =>
  weights b + ((List.range N).map fun p => deltas p b).sum

/-- What the processes hold: `part p` is the partition of process `p`, with local IDs and ghost nodes, `weights p` its block
weights, `locked p` the nodes that it moved last. -/
structure JetState where
  part : Nat → Nat → Nat
  weights : Nat → Nat → Int
  locked : Nat → Nat → Bool

/-- How the threads execute the parts of an iteration: the two exchanges and the moves. -/
structure JetSchedule where
  candidates : Nat → Execution
  shuffle : List (Nat × (Int × Nat)) → List (Nat × (Int × Nat))
  order : Nat → List Nat
  labels : Nat → Execution
  shuffle' : List (Nat × Nat) → List (Nat × Nat)

/-- Each process computes a result; a failure anywhere is a failure. -/
def forAll? {β : Type} (N : Nat) (d : β) (f : Nat → Option β) : Option (Nat → β) :=
  ((List.range N).mapM f).map fun l p => l.getD p d

/-- `find_moves` and `synchronize_ghost_node_move_candidates` on all processes. -/
def jetCandidates? (N : Nat) (g : Nat → DGraph) (sch : JetSchedule) (best : Nat → Nat → Int × Nat) (accept : Nat → Nat → Bool)
    (s : JetState) : Option (Nat → Nat → Int × Nat) :=
  forAll? N (fun _ => (0, 0)) fun me =>
    syncFiltered? N (0, (0, 0)) g sch.candidates
      (fun p => isCandidate (s.part p) (findMoves (g p).n (s.part p) (s.locked p) (best p) (accept p) fun _ => (0, 0)))
      (fun p => findMoves (g p).n (s.part p) (s.locked p) (best p) (accept p) fun _ => (0, 0))
      (g me).totalN sch.shuffle me
      (resetGhosts (g me).n (s.part me) (findMoves (g me).n (s.part me) (s.locked me) (best me) (accept me) fun _ => (0, 0)))

/-- `synchronize_ghost_node_labels`, DJ 359-386, on all processes. -/
def jetLabels? (N : Nat) (g : Nat → DGraph) (sch : JetSchedule) (locked : Nat → Nat → Bool) (part : Nat → Nat → Nat) :
    Option (Nat → Nat → Nat) :=
  forAll? N (fun _ => 0) fun me =>
    syncFiltered? N (0, 0) g sch.labels locked part (g me).totalN sch.shuffle' me (part me)

/-- One iteration without the balancer, DJ 153-158, on all `N` processes. -/
def jetIteration? (N k : Nat) (g : Nat → DGraph) (sch : JetSchedule) (best : Nat → Nat → Int × Nat) (accept : Nat → Nat → Bool)
    (s : JetState) : Option JetState :=
  (jetCandidates? N g sch best accept s).bind fun cand =>
  (forAll? N (fun _ => false) fun p => filterMoves? (g p) (s.part p) (cand p)).bind fun locked =>
  (forAll? N (fun _ => 0, fun _ => 0) fun p => moveLocked? (g p) k (locked p) (cand p) (sch.order p) (s.part p)).bind fun moved =>
  (jetLabels? N g sch locked fun p => (moved p).1).map fun part =>
    ⟨part, fun p => applyDeltas N (fun q => (moved q).2) (s.weights p), locked⟩

/-- `BestPartitionSnapshooter` of one process, `snapshooter.h`; the imbalance is a double with an integer value. -/
structure Shooter where
  bestPart : Nat → Nat
  bestWeights : Nat → Int
  bestCut : Int
  bestL1 : Int
  lastIsBest : Bool

/-- `copy_partition`, SN 72-84: the blocks of all nodes and ghost nodes, and the weights of all blocks. -/
def Shooter.copy (totalN k : Nat) (part : Nat → Nat) (weights : Nat → Int) (s : Shooter) : Shooter :=
  { s with bestPart := fun l => if l < totalN then part l else s.bestPart l,
           bestWeights := fun b => if b < k then weights b else s.bestWeights b }

/-- `init`, SN 20-27; the cut is converted to 32 bits. -/
def Shooter.init (totalN k : Nat) (part : Nat → Nat) (weights : Nat → Int) (cut l1 : Int) (s : Shooter) : Shooter :=
  { s.copy totalN k part weights with bestCut := narrow cut, bestL1 := l1, lastIsBest := true }

/-- `update`, SN 54-70; the cut is converted to 32 bits before the call, DJ 175. -/
def Shooter.update (totalN k : Nat) (part : Nat → Nat) (weights : Nat → Int) (cut l1 : Int) (s : Shooter) : Shooter :=
  if (s.bestL1 > 0 ∧ l1 < s.bestL1) ∨ (l1 = 0 ∧ narrow cut ≤ s.bestCut) then
    { s.copy totalN k part weights with bestCut := narrow cut, bestL1 := l1, lastIsBest := true }
  else { s with lastIsBest := false }

/-- `rollback`, SN 29-44. -/
def Shooter.rollback (totalN k : Nat) (part : Nat → Nat) (weights : Nat → Int) (s : Shooter) : (Nat → Nat) × (Nat → Int) :=
  if s.lastIsBest then (part, weights)
  else (fun l => if l < totalN then s.bestPart l else part l, fun b => if b < k then s.bestWeights b else weights b)

/-- A round, DJ 139-208, on a process with `totalN` nodes and ghost nodes: `part i` and `weights i` are its partition and block
weights after `i` iterations with the balancer, `cut i` and `l1 i` what the metrics compute then. -/
def jetRound (totalN k m : Nat) (part : Nat → Nat → Nat) (weights : Nat → Nat → Int) (cut l1 : Nat → Int) (s : Shooter) :
    (Nat → Nat) × (Nat → Int) :=
  ((List.range m).foldl (fun s i => s.update totalN k (part (i + 1)) (weights (i + 1)) (cut (i + 1)) (l1 (i + 1)))
    (s.init totalN k (part 0) (weights 0) (cut 0) (l1 0))).rollback totalN k (part m) (weights m)

end Verif.Dist
