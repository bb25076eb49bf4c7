import Verif.NodeBalancer.Buckets

/-!
# Cut-off buckets of the distributed cluster balancer

The first part of `perform_parallel_round` in `kaminpar-dist/refinement/balancer/cluster_balancer.cc` (CB).  The buckets of all processes are summed
up as in the node balancer, `Verif.NodeBalancer.Sel`; the limits are different ones.

The current rebalance fraction is the fraction `p / q`, and the arithmetic on it is exact.
-/

namespace Verif.ClusterBalancer
open Verif
open Verif.NodeBalancer.Sel (cutoffLoop?)

/-- `max_weight`, CB 414-416: the limit plus a part of the overload, rounded towards zero. -/
def fakeLimit (p q : Nat) (maxw cur : Int) : Int := (maxw * q + ((q : Int) - p) * (cur - maxw)).tdiv q

/-- `current_overloaded_block`, `cut_off_buckets` and `to_overloaded_map`. -/
structure Cutoffs where
  cur : Nat
  cuts : Nat → Nat
  idx : Nat → Nat

/-- The round: the fraction, the number of blocks and of buckets, the block weights and limits. -/
structure CutIn where
  p : Nat
  q : Nat
  k : Nat
  num : Nat
  bw : Nat → Int
  maxw : Nat → Int

/-- `count_overloaded_blocks`, CB 403, the size of `cut_off_buckets`. -/
def CutIn.numOver (I : CutIn) : Nat := ((List.range I.k).filter fun b => decide (I.maxw b < I.bw b)).length

/-- One block in the loop CB 408-440, where `arr` is the array with the sums of the buckets on the root.  `none`: an access outside of an array. -/
def cutStep? (I : CutIn) (arr : List Int) (s : Cutoffs) (b : Nat) : Option Cutoffs :=
  if fakeLimit I.p I.q (I.maxw b) (I.bw b) < I.bw b then
    (cutoffLoop? arr (s.cur * I.num) (fakeLimit I.p I.q (I.maxw b) (I.bw b)) I.num 0 (I.bw b)).bind fun c =>
      if s.cur < I.numOver then some ⟨s.cur + 1, upd s.cuts s.cur c, upd s.idx b s.cur⟩ else none
  else some s

/-- The cut-offs after the broadcast, CB 403-442; they are the same on all processes, since the loop does the same on all except for the cut-offs. -/
def cutoffs? (I : CutIn) (arr : List Int) : Option Cutoffs := (List.range I.k).foldlM (cutStep? I arr) ⟨0, fun _ => 0, fun _ => 0⟩

/-- Whether a cluster of block `b` in bucket `i` is a candidate, CB 471-475.  `none`: an access outside of `cut_off_buckets`. -/
def belowCut? (I : CutIn) (s : Cutoffs) (b i : Nat) : Option Bool :=
  if I.maxw b < I.bw b then if s.idx b < I.numOver then some (decide (i < s.cuts (s.idx b))) else none else some false

/-- The fraction of the next round, CB 584-585, for an increase of `d / q`. -/
def nextFraction (p q d : Nat) : Nat := min q (p + d)

end Verif.ClusterBalancer
