import Verif.NodeBalancer.Model

/-!
# Rounds of the distributed cluster balancer

The second half of `perform_parallel_round`, `perform_moves` and the last steps of `perform_sequential_round` in
`kaminpar-dist/refinement/balancer/cluster_balancer.cc` (CB), on all processes: some of the proposed clusters are accepted at random, the block
weights are updated everywhere, the owners move the nodes of the accepted clusters and tell the processes that have them as ghost nodes.

Nodes are named by their global ids, clusters by the process and a number.  Which clusters are proposed is arbitrary, and so are the random numbers.
The loop with the dice, CB 508-552, is the same as that of the node balancer, `Verif.NodeBalancer.attempts?`.  Connections of clusters are the
subject of `Verif.ClusterBalancer.Model`; priority queues and buckets are not modelled.
-/

namespace Verif.ClusterBalancer
open Verif
open Verif.NodeBalancer (Cand Rank Sys Dice attempts? sumRanks)

/-- The processes, nodes and blocks; the neighbours of the nodes; the nodes of the clusters of each process. -/
structure CSys where
  sys : Sys
  adj : Nat → List Nat
  nodes : Nat → Nat → List Nat

/-- One neighbour in the loop CB 732-744: the processes in `created_message_for_pe` so far. -/
def markStep (C : CSys) (rank : Nat) (pes : List Nat) (v : Nat) : List Nat :=
  if C.sys.owner v ≠ rank then if C.sys.owner v ∈ pes then pes else pes ++ [C.sys.owner v] else pes

/-- The processes that get a message about node `u`, CB 732-754; the marker is empty before each node. -/
def receivers (C : CSys) (rank u : Nat) : List Nat := (C.adj u).foldl (markStep C rank) []

/-- The loop CB 714-757 as far as it changes the partition of the process. -/
def moveOwn (C : CSys) (rank : Nat) (cands : List Cand) (part : Nat → Nat) : Nat → Nat :=
  cands.foldl (fun part c => (C.nodes rank c.id).foldl (fun part u => upd part u c.to) part) part

/-- The messages from `rank` to `pe`, CB 714-757: a node and its new block. -/
def messages (C : CSys) (rank pe : Nat) (cands : List Cand) : List (Nat × Nat) :=
  cands.flatMap fun c => (C.nodes rank c.id).flatMap fun u => if pe ∈ receivers C rank u then [(u, c.to)] else []

/-- The messages are received, CB 770-782, here in the order of the processes. -/
def receive (C : CSys) (rank : Nat) (acc : Nat → List Cand) (part : Nat → Nat) : Nat → Nat :=
  (List.range C.sys.N).foldl (fun part pe => (messages C pe rank (acc pe)).foldl (fun part m => upd part m.1 m.2) part) part

/-- The partition of a process after `perform_moves`, CB 662-793, where `acc r` are the moved clusters of process `r`. -/
def movedPart (C : CSys) (acc : Nat → List Cand) (s : Nat → Rank) (rank : Nat) : Nat → Nat :=
  receive C rank acc (moveOwn C rank (acc rank) (s rank).part)

/-- `perform_parallel_round`, CB 508-581, in which the processes propose `picks`.  `none`: undefined behaviour. -/
def parallelRound? (C : CSys) (diceAttempts : Nat) (accept : Bool) (rnd : Nat → Nat → Nat → Bool) (picks : Nat → List Cand)
    (s : Nat → Rank) : Option (Nat → Rank) := do
  let r ← attempts? C.sys (s 0).bw rnd (max 1 diceAttempts) (fun r => ⟨picks r, 0, fun _ => 0⟩) false
  if r.2 || accept then
    let acc := fun rank => (r.1 rank).cands.take ((r.1 rank).cands.length - (r.1 rank).rejected)
    some fun rank => ⟨movedPart C acc s rank, fun b => (s rank).bw b + sumRanks C.sys.N fun pe => (r.1 pe).deltas b⟩
  else some s

/-- The block weights after one candidate, CB 704-711. -/
def weightStep (bw : Nat → Int) (c : Cand) : Nat → Int :=
  upd (upd bw c.from (bw c.from - c.weight)) c.to (upd bw c.from (bw c.from - c.weight) c.to + c.weight)

/-- `perform_moves(.., true)` on all processes, CB 662-793, for the clusters that were chosen by the root and sent to all processes, CB 644-651; a
candidate comes with its owner. -/
def sequentialMoves (C : CSys) (winners : List (Nat × Cand)) (s : Nat → Rank) (rank : Nat) : Rank :=
  ⟨movedPart C (fun r => (winners.filter fun w => decide (w.1 = r)).map Prod.snd) s rank, (winners.map Prod.snd).foldl weightStep (s rank).bw⟩

end Verif.ClusterBalancer
