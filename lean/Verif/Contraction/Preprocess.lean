import Verif.Util

/-!
# Model of the preprocessing step of the cluster contraction

Source: `kaminpar-shm/coarsening/contraction/cluster_contraction_preprocessing.cc` (CCP).

Arrays are functions on indices, `NodeID` values are natural numbers: all values are at most `n`, so they fit.
A parallel loop whose iterations are single atomic accesses is executed in the order of an arbitrary
permutation of its index range.
-/

namespace Verif.Contraction

/-- The first `len` entries of an array are replaced by their inclusive prefix sums, as
`parallel::prefix_sum(a, a + len, a)` does (the parallel algorithm itself is the subject of C22). -/
def prefixSum (len : Nat) (a : Nat → Nat) : Nat → Nat :=
  fun i => if i < len then ((List.range (i + 1)).map a).sum else a i

/-- `fill_leader_mapping`, CCP 18-36: `init` is the previous content of the array, `zero` and `mark` the
orders in which the two parallel loops of CCP 29-32 execute their stores. -/
def fillLeaderMapping (n : Nat) (clustering : Nat → Nat) (zero mark : List Nat) (init : Nat → Nat) : Nat → Nat :=
  let zeroed := zero.foldl (fun a u => upd a u 0) init
  let marked := mark.foldl (fun a u => upd a (clustering u) 1) zeroed
  prefixSum n marked

/-- `compute_mapping`, CCP 38-48: every node replaces its own entry; `order` is the order of the iterations. -/
def renumber (leader : Nat → Nat) (order : List Nat) (clustering : Nat → Nat) : Nat → Nat :=
  order.foldl (fun a u => upd a u (leader (a u) - 1)) clustering

/-- The orders of the three loops of `compute_mapping`. -/
structure MapSched where
  zero : List Nat
  mark : List Nat
  write : List Nat

/-- `compute_mapping`, CCP 50-64: the number of coarse nodes and the mapping.  For `n = 0` the code reads
`leader_mapping[-1]`; the model is only used for `n > 0`. -/
def computeMapping (n : Nat) (clustering : Nat → Nat) (init : Nat → Nat) (s : MapSched) : Nat × (Nat → Nat) :=
  let leader := fillLeaderMapping n clustering s.zero s.mark init
  (leader (n - 1), renumber leader s.write clustering)

/-- The steps of the last loop of `fill_cluster_buckets`, CCP 93-95: node `u` takes a position out of its
bucket (the atomic `sub_fetch`) and later stores itself there. -/
inductive Step
  | take (u : Nat)
  | store (u : Nat)
  deriving DecidableEq, Repr

structure BucketState where
  /-- `buckets_index` -/
  index : Nat → Nat
  /-- `buckets` -/
  buckets : Nat → Nat
  /-- the position a node has taken, a local variable of its iteration -/
  slot : Nat → Nat

/-- One step of CCP 93-95. -/
def bucketStep (mapping : Nat → Nat) (s : BucketState) : Step → BucketState
  | .take u => { s with
      index := upd s.index (mapping u) (s.index (mapping u) - 1)
      slot := upd s.slot u (s.index (mapping u) - 1) }
  | .store u => { s with buckets := upd s.buckets (s.slot u) u }

structure BucketSched where
  /-- order of the zeroing loop, CCP 86 -/
  zero : List Nat
  /-- order of the counting loop, CCP 87-89 -/
  count : List Nat
  /-- interleaving of the steps of the last loop -/
  steps : List Step

/-- `fill_cluster_buckets`, CCP 66-97; `index`, `buckets`, `slot` are arbitrary previous contents. -/
def fillClusterBuckets (cn : Nat) (mapping : Nat → Nat) (s : BucketSched) (index buckets slot : Nat → Nat) :
    BucketState :=
  let zeroed := s.zero.foldl (fun a i => upd a i 0) index
  let counted := s.count.foldl (fun a u => upd a (mapping u) (a (mapping u) + 1)) zeroed
  s.steps.foldl (bucketStep mapping) ⟨prefixSum (cn + 1) counted, buckets, slot⟩

end Verif.Contraction
