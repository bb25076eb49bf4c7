import Verif.ClusterBalancer.Greedy

/-!
# The weight limit of clusters and the proposals of the parallel round

`compute_cluster_weight_limit`, `assign_feasible_target_block` and the loop of `perform_parallel_round` that picks the clusters which are proposed
for a move, in `kaminpar-dist/refinement/balancer/cluster_balancer.cc` (CB); `num_imbalanced_blocks` in `kaminpar-dist/metrics.cc` (ME).

One process is modelled.  Weights are unbounded integers, block IDs have 32 bits.  `none` is a division by zero or an access outside of an array.
-/

namespace Verif.ClusterBalancer
open Verif

/-- `overload`, CB 847-852. -/
def overloadOf (bw maxw : Nat → Int) (b : Nat) : Int := max 0 (bw b - maxw b)

/-- `underload`, CB 854-859. -/
def underloadOf (bw maxw : Nat → Int) (b : Nat) : Int := max 0 (maxw b - bw b)

/-- `metrics::num_imbalanced_blocks`, ME 66-77. -/
def numImbalanced (k : Nat) (bw maxw : Nat → Int) : Nat := ((List.range k).filter fun b => decide (bw b > maxw b)).length

/-- `ClusterSizeStrategy`. -/
inductive SizeStrategy where
  | zero
  | one
  | maxOverload
  | avgOverload
  | minOverload

/-- `compute_cluster_weight_limit`, CB 883-912, before the multiplication in CB 914. -/
def baseLimit? (k : Nat) (bw maxw : Nat → Int) : SizeStrategy → Option Int
  | .zero => some 0
  | .one => some 1
  | .maxOverload => some ((List.range k).foldl (fun l b => max l (overloadOf bw maxw b)) 0)
  | .avgOverload => if numImbalanced k bw maxw = 0 then none
      else some (((List.range k).foldl (fun l b => l + overloadOf bw maxw b) 0) / (numImbalanced k bw maxw : Int))
  | .minOverload => some ((List.range k).foldl (fun l b => min l (overloadOf bw maxw b)) 0)

/-- The next value of `candidate.to`, CB 873-876; the increment wraps around. -/
def nextTo (k to : Nat) : Nat := if (to + 1) % 2 ^ 32 ≥ k then 0 else (to + 1) % 2 ^ 32

/-- `assign_feasible_target_block`, CB 869-881, with at most `fuel` iterations; the result is the last value of `candidate.to`, and the function
returns whether it is different from `candidate.from`, here `fr`. -/
def assign? (k : Nat) (bw maxw deltas : Nat → Int) (fr : Nat) (w : Int) : Nat → Nat → Option Nat
  | 0, _ => none
  | fuel + 1, to =>
    if fr ≠ nextTo k to ∧ underloadOf bw maxw (nextTo k to) < w + deltas (nextTo k to) then assign? k bw maxw deltas fr w fuel (nextTo k to)
    else some (nextTo k to)

/-- `MoveCandidate` without the owner and the gain. -/
structure Proposal where
  id : Nat
  weight : Int
  src : Nat
  dst : Nat

/-- The clusters of the process: the block and the weight of a cluster, its connections, and whether it is picked: it was not moved yet, its block
is overloaded and its bucket is below the cut-off, CB 467-475. -/
structure Round where
  k : Nat
  bw : Nat → Int
  maxw : Nat → Int
  block : Nat → Nat
  weight : Nat → Int
  conn : Nat → Nat → Int
  picked : Nat → Bool

/-- The target that `find_max_relative_gain` returns for the cluster, CB 472. -/
def Round.target (R : Round) (c : Nat) : Nat := (findMaxConn R.k (R.conn c) (R.block c) R.bw R.maxw (R.weight c)).2

/-- One cluster in the loop CB 466-497.  The state is `block_weight_deltas`, which has `k` entries, and `candidates`.  The weight is added for the
local variable `to` and not for `candidate.to`. -/
def proposeStep? (R : Round) (s : (Nat → Int) × List Proposal) (c : Nat) : Option ((Nat → Int) × List Proposal) :=
  if R.picked c = true then
    (if R.target c = R.block c then assign? R.k R.bw R.maxw s.1 (R.block c) (R.weight c) R.k (R.target c) else some (R.target c)).bind fun dst =>
      if R.target c < R.k then
        some (upd s.1 (R.target c) (s.1 (R.target c) + R.weight c), s.2 ++ [⟨c, R.weight c, R.block c, dst⟩])
      else none
  else some s

/-- The loop CB 463-497 over `m` clusters. -/
def propose? (R : Round) (m : Nat) : Option ((Nat → Int) × List Proposal) := (List.range m).foldlM (proposeStep? R) (fun _ => 0, [])

end Verif.ClusterBalancer
