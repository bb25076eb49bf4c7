import Verif.Contraction.Model

/-!
# The contraction algorithms from the clustering to the coarse graph

Puts together the preprocessing (`Preprocess.lean`), the aggregation and the write phases (`Model.lean`).
-/

namespace Verif.Contraction

open Verif.Maps

/-- `compute_mapping` (CCP 50-64) and `fill_cluster_buckets` (CCP 66-97), called one after the other by all
algorithms (BCC 279-280, LBC 179-180, NUC 185-186, UCC 595-596): schedules and the previous contents of the arrays.
`contract_clustering` (`cluster_contraction.cc` 34-53) only selects the algorithm. -/
structure Prep where
  map : MapSched
  buckets : BucketSched
  leader : Nat → Nat
  index : Nat → Nat
  bucketMem : Nat → Nat
  slots : Nat → Nat

/-- Number of coarse nodes. -/
def Prep.cn (p : Prep) (n : Nat) (clustering : Nat → Nat) : Nat := (computeMapping n clustering p.leader p.map).1

/-- The coarse node of a fine node. -/
def Prep.mapping (p : Prep) (n : Nat) (clustering : Nat → Nat) : Nat → Nat :=
  (computeMapping n clustering p.leader p.map).2

/-- The fine nodes of a coarse node. -/
def Prep.bucket (p : Prep) (n : Nat) (clustering : Nat → Nat) : Nat → List Nat :=
  bucketOf (fillClusterBuckets (p.cn n clustering) (p.mapping n clustering) p.buckets p.index p.bucketMem p.slots)

/-- `upper_bound_degree`, BCC 82-90 and 174-181, LBC 111-115, NUC 93-97, UCC 340-344: a 32-bit `NodeID`. -/
def fineDegree (g : Graph) (bucket : Nat → List Nat) (c : Nat) : Nat :=
  ((bucket c).map fun u => (g.adj u).length).sum % 2 ^ 32

/-- The row of coarse node `c` collected by a thread's `RatingMap` (BCC 183, LBC 116, NUC 99, UCC 346-350) with the
degree bound `up`, after the thread has used the map for `uses` (degree bound and coarse node). -/
def row? (cn : Nat) (ins : Nat → List (Nat × Int)) (uses : List (Nat × Nat)) (up c : Nat) :
    Option (List (Nat × Int)) :=
  ratingMap (selectMap cn up) cn
    ((uses.filter fun x => selectMap cn x.1 = selectMap cn up).map fun x => ins x.2) (ins c)

/-- The rows of all coarse nodes. -/
def rows? (cn : Nat) (f : Nat → Option (List (Nat × Int))) : Option (Nat → List (Nat × Int)) :=
  ((List.range cn).mapM f).map fun l c => l.getD c []

/-- `contract_clustering_buffered`, BCC 26-282 (`limit = none` or the chunk size), and
`contract_clustering_buffered_legacy`, LBC 24-182 (`limit = none`); `earlier c` are the coarse nodes the thread that
handles `c` has handled before. -/
def buffered? (K : Nat) (g : Graph) (p : Prep) (clustering : Nat → Nat) (limit : Option Nat) (earlier : Nat → List Nat)
    (sched : Nat × Nat → ChunkSched) (m : Mem) : Option Mem :=
  let cn := p.cn g.n clustering
  let bucket := p.bucket g.n clustering
  let ins := fun c => inputs g (p.mapping g.n clustering) (bucket c) c
  let up := fineDegree g bucket
  (rows? cn fun c => row? cn ins ((earlier c).map fun d => (up d, d)) (up c) c).bind fun col =>
    bufferedLoop? K col (fun c => bucketWeight g (bucket c)) ((chunks cn limit up).map fun r => (r, sched r)) m

/-- `contract_clustering_unbuffered_naive`, NUC 20-195: `earlier1 c` and `earlier2 c` are the coarse nodes the thread
has handled before `c` in the first and in the second pass; `first c` those which the thread that handles `c` in the
second pass has handled in the first pass. -/
def naive? (g : Graph) (p : Prep) (clustering : Nat → Nat) (earlier1 first earlier2 : Nat → List Nat)
    (order1 order2 : List Write → List Write) (m : Mem) : Option Mem :=
  let cn := p.cn g.n clustering
  let bucket := p.bucket g.n clustering
  let ins := fun c => inputs g (p.mapping g.n clustering) (bucket c) c
  let up := fineDegree g bucket
  (rows? cn fun c => row? cn ins ((earlier1 c).map fun d => (up d, d)) (up c) c).bind fun col1 =>
    let degree := fun c => (col1 c).length
    (rows? cn fun c => row? cn ins (((first c).map fun d => (up d, d)) ++ (earlier2 c).map fun d => (degree d, d))
        (degree c) c).map fun col2 =>
      naive cn col1 col2 (fun c => bucketWeight g (bucket c)) order1 order2 m

/-- How a segment of the fine edges of a second-phase node is collected: the thread whose list of used entries is
extended, the earlier contents of the hash table, the operations of the segment. -/
structure Segment where
  thread : Nat
  earlier : List (List (Nat × Int))
  ins : List (Nat × Int)

/-- Second phase, UCC 428-534: the segments are collected in thread-local tables of size 65536 and then added to the
shared array by atomic additions, executed in the order `order`. -/
def second? (segments : List Segment) (order : List (Nat × Nat × Int) → List (Nat × Nat × Int)) (threads : List Nat) :
    Option (List (Nat × Int)) :=
  (segments.mapM fun s => (run (FixedMap.op 0) (FixedMap.new 65536) (session s.earlier s.ins)).map fun t =>
    t.entries.map fun e => (s.thread, e)).map fun l => secondPhase (order l.flatten) threads

/-- The three aggregation algorithms of UCC 301-541. -/
inductive Collector
  /-- `GROWING_HASH_TABLES`: coarse nodes handled earlier by the same thread -/
  | growing (earlier : Nat → List Nat)
  /-- `SINGLE_PHASE` -/
  | single (earlier : Nat → List Nat)
  /-- `TWO_PHASE`: earlier contents of the thread's table, and the second phase -/
  | twoPhase (earlier : Nat → List (List (Nat × Int))) (segments : Nat → List Segment)
      (order : Nat → List (Nat × Nat × Int) → List (Nat × Nat × Int)) (threads : Nat → List Nat)

/-- The collected row of `c`; `kDegreeThreshold = 65536 / 3`. -/
def Collector.row? (cn : Nat) (ins : Nat → List (Nat × Int)) (up : Nat → Nat) (k : Collector) (c : Nat) :
    Option (List (Nat × Int)) :=
  match k with
  | .growing earlier => growingMap ((earlier c).map ins) (ins c)
  | .single earlier => Contraction.row? cn ins ((earlier c).map fun d => (up d, d)) (up c) c
  | .twoPhase earlier segments order threads =>
    (run (FixedMap.op 0) (FixedMap.new 65536) (session (earlier c) [])).bind fun s =>
      (firstPhase (65536 / 3) s (ins c)).bind fun r =>
        match r with
        | some out => some out
        | none => second? (segments c) (order c) (threads c)

/-- `contract_clustering_unbuffered`, UCC 122-598, with `NeighborhoodsBuffer` capacities 4096 and 32768 (UCC 34-35).
The node weight of a second-phase node is summed up by the threads (UCC 456-461, 516-520); in the model it is the
same sum. -/
def contractUnbuffered? (g : Graph) (p : Prep) (clustering : Nat → Nat) (k : Collector) (evs : List Ev)
    (order1 order2 : List Write → List Write) (m : Mem) : Option (Mem × (Nat → Nat)) :=
  let cn := p.cn g.n clustering
  let mapping := p.mapping g.n clustering
  let bucket := p.bucket g.n clustering
  let ins := fun c => inputs g mapping (bucket c) c
  (rows? cn (k.row? cn ins (fineDegree g bucket))).bind fun col =>
    unbuffered? 4096 32768 cn col (fun c => bucketWeight g (bucket c)) mapping evs order1 order2 m

end Verif.Contraction
