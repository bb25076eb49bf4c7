import Mathlib.Data.List.Forall2
import Verif.Math.Model
import Verif.Util

/-!
# Model of the order in which label propagation visits the nodes

Source: `kaminpar-shm/label_propagation.h` (LP), class `ChunkRandomLabelPropagation`.  The class in
`kaminpar-dist/distributed_label_propagation.h` (DLP 975-1291) makes and visits chunks in the same way.

Node IDs are 32-bit words.  Sums of nodes that are bounded by the number of nodes, and sums of degrees, which are bounded by the
number of edges, are natural numbers; all others wrap.  `deg` are the degrees, `B` is the array of first nodes of the degree buckets.
What happens to a visited node is not modelled here, see `LP/Refine` and `LP/Cluster`.
-/

namespace Verif.LP
open Verif.Math

/-- `Chunk`: its first node and the first node behind it. -/
abbrev Chunk := Nat × Nat

/-- The local variables of the loop LP 1780-1789. -/
structure Cut where
  chunks : List Chunk
  start : Nat
  size : Nat

/-- One iteration of the loop LP 1780-1789; `S` is `max_chunk_size`. -/
def addNode (deg : Nat → Nat) (S : Nat) (s : Cut) (u : Nat) : Cut :=
  if S ≤ s.size + deg u then ⟨s.chunks ++ [(s.start, u + 1)], u + 1, 0⟩ else { s with size := s.size + deg u }

/-- The chunks of the nodes `[b, e)` of a bucket that starts at `bs`, LP 1777-1796. -/
def cutRange (deg : Nat → Nat) (S bs b e : Nat) : List Chunk :=
  let s := (List.range' b (e - b)).foldl (fun s i => addNode deg S s (bs + i)) ⟨[], bs + b, 0⟩
  if 0 < s.size then s.chunks ++ [(s.start, bs + e)] else s.chunks

/-- Where a task of the loop LP 1763-1799 is: before the condition of `while`, before `fetch_add`, or at its end. -/
inductive Pc where
  | check
  | claim
  | done
deriving DecidableEq

/-- The variable `offset`, the positions of the tasks and the chunks they have pushed. -/
structure Claims where
  offset : Nat
  pc : Nat → Pc
  chunks : Nat → List Chunk

/-- One step of task `t`, LP 1770-1797; `s` is `max_node_chunk_size` and `size` is `bucket_size`.  The part after `fetch_add` works on
data of the thread only and is executed together with it. -/
def claimStep (deg : Nat → Nat) (S s bs size : Nat) (st : Claims) (t : Nat) : Claims :=
  match st.pc t with
  | .check => if st.offset < size then { st with pc := upd st.pc t .claim } else { st with pc := upd st.pc t .done }
  | .claim =>
    if size ≤ st.offset then { st with offset := (st.offset + s) % 2 ^ 32, pc := upd st.pc t .done }
    else
      { offset := (st.offset + s) % 2 ^ 32, pc := upd st.pc t .check
        chunks := upd st.chunks t (st.chunks t ++ cutRange deg S bs st.offset (min ((st.offset + s) % 2 ^ 32) size)) }
  | .done => st

/-- `l` is a possible part of `_chunks` for one bucket, LP 1759-1818: `T` tasks run in some interleaving until all have ended, the
lists of the threads are copied in some order, and `shuffle_chunks` (LP 1855-1860) permutes the chunks of the bucket. -/
def BucketChunks (deg : Nat → Nat) (S s T : Nat) (r : Nat × Nat) (l : List Chunk) : Prop :=
  ∃ sched : List Nat, (∀ t ∈ sched, t < T) ∧
    let st := sched.foldl (claimStep deg S s r.1 r.2) ⟨0, fun _ => .check, fun _ => []⟩
    (∀ t, t < T → st.pc t = .done) ∧ l.Perm ((List.range T).flatMap st.chunks)

/-- The loop over the buckets, LP 1742-1761 and 1820: the nodes `[bs, bs + size)` of each bucket that are in `[fr, ub)`. -/
def bucketRanges (B : Nat → Nat) (fr ub : Nat) : List Nat → Nat → List (Nat × Nat)
  | [], _ => []
  | b :: bs, pos =>
    let size := B (b + 1) - B b
    if pos + size < fr ∨ size = 0 then bucketRanges B fr ub bs (pos + size)
    else if ub ≤ pos then []
    else
      let remaining := if B b < fr then size - (fr - B b) else size
      (max (B b) fr, min (min remaining (ub - pos)) (ub - fr)) :: bucketRanges B fr ub bs (pos + size)

/-- `max_bucket`, LP 1736-1737. -/
def maxBucket? (maxDegree numBuckets : Nat) : Option Nat := (floorLog2? 32 maxDegree).map fun l => min l numBuckets

/-- `chunks` is a possible value of `_chunks` after `init_chunks` and `shuffle_chunks`, LP 1730-1860, for a graph with `n` nodes. -/
def Chunks (deg B : Nat → Nat) (n numBuckets maxDegree S s T fr ub : Nat) (chunks : List Chunk) : Prop :=
  ∃ nb ls, maxBucket? maxDegree numBuckets = some nb ∧ chunks = ls.flatten ∧
    List.Forall₂ (BucketChunks deg S s T) (bucketRanges B fr (min ub n) (List.range nb) 0) ls

/-- `num_sub_chunks`, LP 1881-1882; the division of `double`s is exact for 32-bit numbers and powers of two `P`. -/
def numSubChunks (P : Nat) (c : Chunk) : Nat := (c.2 - c.1 + (P - 1)) / P

/-- The nodes of a chunk in the order of their visits, LP 1894-1901; `P` is `kPermutationSize`. -/
def visits (P : Nat) (perm subs : List Nat) (c : Chunk) : List Nat :=
  subs.flatMap fun j => perm.filterMap fun i =>
    let u := (c.1 + P * j + i) % 2 ^ 32
    if u < c.2 then some u else none

/-- The state of the loop LP 1862-1932: the next chunk, the nodes that each iteration has still to visit (`none` before it has
started), and the nodes on which `handle_node` has been called, in this order. -/
structure Round where
  next : Nat
  queue : Nat → Option (List Nat)
  log : List Nat

/-- One step of iteration `x.1`, LP 1865-1931.  `x.2 = false` stands for a positive answer of `should_stop` or for a node that is not
active.  `order i` are the nodes of chunk `i` in the order of their visits. -/
def roundStep (deg : Nat → Nat) (maxDegree : Nat) (chunks : List Chunk) (order : Nat → List Nat) (st : Round) (x : Nat × Bool) : Round :=
  match st.queue x.1 with
  | none =>
    if x.2 = false then { st with queue := upd st.queue x.1 (some []) }
    else if st.next < chunks.length then { st with next := st.next + 1, queue := upd st.queue x.1 (some (order st.next)) }
    else st
  | some [] => st
  | some (u :: l) =>
    { st with queue := upd st.queue x.1 (some l), log := if x.2 = true ∧ deg u < maxDegree then st.log ++ [u] else st.log }

/-- The loop LP 1862-1932 up to some point. -/
def runRound (deg : Nat → Nat) (maxDegree : Nat) (chunks : List Chunk) (order : Nat → List Nat) (sched : List (Nat × Bool)) : Round :=
  sched.foldl (roundStep deg maxDegree chunks order) ⟨0, fun _ => none, []⟩

/-- `st` is the state at some point of a round over the nodes `[fr, ub)` with the chunks `chunks`, LP 1675-1727: `perm i` is the random
permutation that is used for chunk `i` (`RandomPermutations`, `kaminpar-common/random.h:80-113`), and `subs i` is the order of its
sub-chunks. -/
def IsRound (deg B : Nat → Nat) (n numBuckets maxDegree S s T P fr ub : Nat) (chunks : List Chunk) (sched : List (Nat × Bool)) (st : Round) :
    Prop :=
  Chunks deg B n numBuckets maxDegree S s T fr ub chunks ∧ (∀ x ∈ sched, x.1 < chunks.length) ∧
  ∃ perm subs : Nat → List Nat,
    (∀ i, i < chunks.length →
      (perm i).Perm (List.range P) ∧ (subs i).Perm (List.range (numSubChunks P (chunks.getD i (0, 0))))) ∧
    st = runRound deg maxDegree chunks (fun i => visits P (perm i) (subs i) (chunks.getD i (0, 0))) sched

/-- `TWO_PHASE`, LP 1694-1706: the nodes on which the second phase works are those that the first phase has deferred (LP 598-602,
`defers`), in some order (`_second_phase_nodes` is a concurrent vector); the result are all nodes that are handled. -/
def TwoPhase (defers : Nat → Bool) (log handled : List Nat) : Prop :=
  ∃ second, second.Perm (log.filter defers) ∧ handled = (log.filter fun u => !defers u) ++ second

end Verif.LP
