import Verif.Util

/-!
# Candidates for sequential rounds of the distributed cluster balancer

`pick_sequential_candidates` in `kaminpar-dist/refinement/balancer/cluster_balancer.cc` (CB) on one process.

The priority queues have one queue for each block, `kaminpar-common/datastructures/binary_heap.h`; a queue is the list of its clusters with their
keys, and its largest element is any one with the largest key.  Relative gains are integers here, only their order matters; the bucket of a gain is
any function.  The gain of a cluster does not change during the call.
-/

namespace Verif.ClusterBalancer
open Verif

/-- What the call reads: the blocks, whether they are overloaded, `seq_num_nodes_per_block`, the weights, gains and targets of the clusters, the bucket
of a gain, and the position of the largest element of a queue. -/
structure PickIn where
  k : Nat
  over : Nat → Bool
  limit : Nat
  weight : Nat → Int
  gain : Nat → Int
  target : Nat → Nat
  bucket : Int → Nat
  top : List (Nat × Int) → Nat

/-- The queue of a block, the weights in its buckets, and its candidates with their gains. -/
structure Picked where
  queue : List (Nat × Int)
  buckets : Nat → Int
  cands : List (Nat × Int)

/-- `_weight_buckets.add(from, weight, gain)` for a cluster with a gain. -/
def addBucket (I : PickIn) (buckets : Nat → Int) (x : Nat × Int) : Nat → Int :=
  upd buckets (I.bucket x.2) (buckets (I.bucket x.2) + I.weight x.1)

/-- `_weight_buckets.remove(from, weight, gain)`. -/
def removeBucket (I : PickIn) (buckets : Nat → Int) (x : Nat × Int) : Nat → Int :=
  upd buckets (I.bucket x.2) (buckets (I.bucket x.2) - I.weight x.1)

/-- The loop CB 808-836 for a block, where `m` is the limit minus `num`, with at most `fuel` iterations.  `--num` and `++num` cancel out, also for
`num = 0`, since the type is unsigned.  `none`: more iterations, or `top` is outside of the queue. -/
def pickLoop? (I : PickIn) : Nat → Nat → Picked → Option Picked
  | _, 0, s => some s
  | 0, _ + 1, s => if s.queue = [] then some s else none
  | fuel + 1, m + 1, s =>
    if s.queue = [] then some s
    else (s.queue[I.top s.queue]?).bind fun e =>
      let queue := s.queue.eraseIdx (I.top s.queue)
      let buckets := removeBucket I s.buckets e
      if I.gain e.1 ≥ e.2 then pickLoop? I fuel m ⟨queue, buckets, s.cands ++ [(e.1, I.gain e.1)]⟩
      else pickLoop? I fuel (m + 1) ⟨(e.1, I.gain e.1) :: queue, addBucket I buckets (e.1, I.gain e.1), s.cands⟩

/-- The loop CB 838-841: the candidates are put back. -/
def putBack (I : PickIn) (s : Picked) : Picked :=
  s.cands.foldl (fun s x => { s with queue := x :: s.queue, buckets := addBucket I s.buckets x }) s

/-- CB 806-841 for a block. -/
def pickBlock? (I : PickIn) (queue : List (Nat × Int)) (buckets : Nat → Int) : Option Picked :=
  (pickLoop? I (I.limit + queue.length) I.limit ⟨queue, buckets, []⟩).map (putBack I)

/-- `pick_sequential_candidates`, CB 795-845: the overloaded blocks with their results.  (Different blocks have different queues and buckets.) -/
def pickAll? (I : PickIn) (queues : Nat → List (Nat × Int)) (buckets : Nat → Nat → Int) : Option (List (Nat × Picked)) :=
  ((List.range I.k).filter I.over).mapM fun b => (pickBlock? I (queues b) (buckets b)).map fun r => (b, r)

/-- The returned list: block, cluster, gain and target of each candidate. -/
def candidatesOf (I : PickIn) (rs : List (Nat × Picked)) : List (Nat × Nat × Int × Nat) :=
  rs.flatMap fun r => r.2.cands.map fun c => (r.1, c.1, c.2, I.target c.1)

end Verif.ClusterBalancer
