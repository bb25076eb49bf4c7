import Verif.ClusterBalancer.Rounds
import Verif.ClusterBalancer.Limit

/-!
# Sequential rounds of the distributed cluster balancer

`perform_sequential_round` in `kaminpar-dist/refinement/balancer/cluster_balancer.cc` (CB), from the candidates of the processes on: the reduction
to the root, the choice of blocks for candidates without one, the broadcast and the moves.

`reduce_candidates` is the same template as for the node balancer, `Verif.NodeBalancer.Reduced`.  It only copies candidates and compares their ids
with the invalid id, so the owner and the id of a cluster are one number here.
-/

namespace Verif.ClusterBalancer
open Verif
open Verif.NodeBalancer (Cand Rank Sys Reduced)

/-- A candidate of process `rank` in the reduction: its id stands for the owner and the number of the cluster. -/
def withOwner (N rank : Nat) (c : Cand) : Cand := { c with id := c.id * N + rank }

/-- The owner of a candidate, and the candidate. -/
def splitOwner (N : Nat) (c : Cand) : Nat × Cand := (c.id % N, { c with id := c.id / N })

/-- `tmp_block_weight_deltas` after the loop CB 605-611. -/
def firstDeltas (cands : List Cand) : Nat → Int := cands.foldl (fun d c => if c.from = c.to then d else weightStep d c) fun _ => 0

/-- The loop CB 613-624; the candidates are changed in place.  The assertion CB 620 is not active in release builds. -/
def selectLoop? (k : Nat) (bw maxw : Nat → Int) : List Cand → (Nat → Int) → Option (List Cand)
  | [], _ => some []
  | c :: l, d =>
    if c.from ≠ c.to then (selectLoop? k bw maxw l d).map fun l' => c :: l'
    else (assign? k bw maxw d c.from c.weight k c.to).bind fun t =>
      (selectLoop? k bw maxw l (weightStep d { c with «to» := t })).map fun l' => { c with «to» := t } :: l'

/-- Step 2 on the root, CB 603-624. -/
def select? (k : Nat) (bw maxw : Nat → Int) (cands : List Cand) : Option (List Cand) := selectLoop? k bw maxw cands (firstDeltas cands)

/-- `perform_sequential_round`, CB 588-660, in which the processes have the candidates `picks`. -/
def SequentialRound (C : CSys) (maxNodes : Nat) (sort : List Cand → List Cand) (picks : Nat → List Cand) (s s' : Nat → Rank) : Prop :=
  ∃ ws, Reduced C.sys.N ⟨(s 0).bw, C.sys.maxw, maxNodes, sort⟩ (fun r => (picks r).map (withOwner C.sys.N r)) (some ws) ∧
    ∃ sel, select? C.sys.k (s 0).bw C.sys.maxw ws = some sel ∧ s' = sequentialMoves C (sel.map (splitOwner C.sys.N)) s

end Verif.ClusterBalancer
