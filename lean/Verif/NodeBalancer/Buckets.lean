import Verif.Util

/-!
# Which nodes the distributed node balancer proposes to move

Sources: `kaminpar-dist/refinement/balancer/node_balancer.cc` (NB), `weight_buckets.h` (WB) and `reductions.h` (R).

Each process has a priority queue for each block.  Its nodes are put into buckets by their gains; the weights of the buckets are added up
over all processes, and process 0 computes how many buckets are needed.

Gains are integers instead of doubles, and the logarithm is a parameter: only their order and the number of the bucket matter.  Weights are
unbounded integers.  All processes know the same block weights (C50).
-/

namespace Verif.NodeBalancer.Sel
open Verif

/-- A node in a queue. -/
structure Elem where
  id : Nat
  weight : Int
  gain : Int
  deriving DecidableEq

/-! ## The queue of one block on one process -/

/-- `try_pq_insertion`, NB 446-472, for a node whose degree is not above the threshold; the state is the queue and `_pq_weight`.  `pick` is the
position of the minimum of the queue (any of the nodes with the smallest gain). -/
def tryInsert? (pick : List Elem → Nat) (overload : Int) (s : List Elem × Int) (e : Elem) : Option (List Elem × Int) :=
  if s.2 < overload ∨ s.1 = [] ∨ (s.1[pick s.1]?.any fun m => decide (m.gain < e.gain)) = true then
    (e :: s.1)[pick (e :: s.1)]?.map fun m =>
      if m.gain < e.gain ∧ overload ≤ s.2 + e.weight - m.weight then ((e :: s.1).eraseIdx (pick (e :: s.1)), s.2 + e.weight - m.weight)
      else (e :: s.1, s.2 + e.weight)
  else some s

/-- A node of an overloaded block in the queue of a thread, NB 203-220, if its degree is not above the threshold; the state is the queue and
`pq_weight`, which is never changed.  The minimum of an empty queue is undefined. -/
def localInsert? (pick : List Elem → Nat) (overload : Int) (s : List Elem × Int) (e : Elem) : Option (List Elem × Int) :=
  if s.2 < overload ∨ s.1 = [] ∨ (s.1[pick s.1]?.any fun m => decide (m.gain < e.gain)) = true then
    if s.2 < overload then some (e :: s.1, s.2)
    else s.1[pick s.1]?.map fun m => if overload ≤ s.2 + e.weight - m.weight then (e :: s.1.eraseIdx (pick s.1), s.2) else (e :: s.1, s.2)
  else some s

/-- `reinit` for one overloaded block, NB 190-237: `threads` are the nodes that each thread visits, `order` is the order of the elements of a heap. -/
def fillQueue? (pick : List Elem → Nat) (order : List Elem → List Elem) (overload : Int) (threads : List (List Elem)) : Option (List Elem × Int) :=
  (threads.mapM fun l : List Elem => l.foldlM (localInsert? pick overload) ([], 0)).bind fun qs =>
    (qs.flatMap fun q => order q.1).foldlM (tryInsert? pick overload) ([], 0)

/-! ## Buckets -/

/-- The parameters of `Buckets`, WB 22-36: `neg` is `num_neg_buckets`, WB 148-149, and `lg x` is `std::ceil(std::log2(1 + x) / std::log2(_base))`. -/
structure Conf where
  positive : Bool
  neg : Nat
  lg : Nat → Nat

/-- `compute_num_buckets`, WB 147-151. -/
def Conf.num (B : Conf) : Nat := B.neg + (if B.positive = true then B.neg else 0) + 1

/-- `neutral_bucket`, WB 153-155. -/
def Conf.neutral (B : Conf) : Nat := if B.positive = true then B.num / 2 else 1

/-- `compute_bucket`, WB 38-52, before the assertion; a negative number cannot be converted to `std::size_t`. -/
def Conf.index? (B : Conf) (gain : Int) : Option Nat :=
  if 0 < gain then
    if B.positive = true then (if B.lg gain.toNat ≤ B.neutral then some (B.neutral - B.lg gain.toNat) else none) else some 0
  else if gain = 0 then some B.neutral
  else some (B.neutral + B.lg (-gain).toNat)

/-- `compute_bucket`, WB 38-52; `none` if the bucket does not exist. -/
def Conf.bucket? (B : Conf) (gain : Int) : Option Nat := (B.index? gain).bind fun i => if i < B.num then some i else none

/-- `Buckets::add` for all nodes of the queues, WB 58-60 and NB 482-511; `elems b` are the nodes of the queue of block `b` in any order. -/
def sizes? (B : Conf) (k : Nat) (elems : Nat → List Elem) : Option (Nat → Int) :=
  ((List.range k).flatMap fun b => (elems b).map fun e => (b, e)).foldlM (fun s x =>
    (B.bucket? x.2.gain).map fun i => upd s (x.1 * B.num + i) (s (x.1 * B.num + i) + x.2.weight)) fun _ => 0

/-- The overloaded blocks. -/
def overloaded (bw maxw : Nat → Int) (k : Nat) : List Nat := (List.range k).filter fun b => decide (maxw b < bw b)

/-- `compactify`, WB 80-97. -/
def compactify (B : Conf) (bw maxw : Nat → Int) (k : Nat) (s : Nat → Int) : List Int :=
  (overloaded bw maxw k).flatMap fun b => (List.range B.num).map fun i => s (b * B.num + i)

/-- `MPI_Reduce` with `MPI_SUM`, R 180-207; the arrays must have the same length. -/
def reduce? : List (List Int) → Option (List Int)
  | [] => none
  | a :: r => r.foldlM (fun x y => if x.length = y.length then some (List.zipWith (· + ·) x y) else none) a

/-- The inner loop of `compute_cutoff_buckets`, WB 112-116: `c` is `cutoff_bucket`, `cur` is `current_weight`, `rem` is the number of buckets that are left. -/
def cutoffLoop? (arr : List Int) (base : Nat) (maxw : Int) : (rem c : Nat) → (cur : Int) → Option Nat
  | 0, c, _ => some c
  | rem + 1, c, cur => if maxw < cur then arr[base + c]?.bind fun x => cutoffLoop? arr base maxw rem (c + 1) (cur - x) else some c

/-- One iteration of the outer loop on process 0, WB 107-121: the state is `compactified_block` and `compactified_cutoff_buckets`. -/
def rootStep? (B : Conf) (bw maxw : Nat → Int) (arr : List Int) (s : Nat × List Nat) (b : Nat) : Option (Nat × List Nat) :=
  if maxw b < bw b then (cutoffLoop? arr (s.1 * B.num) (maxw b) B.num 0 (bw b)).map fun c => (s.1 + 1, s.2 ++ [c]) else some s

/-- `compute_cutoff_buckets` on process 0, WB 105-122. -/
def rootCutoffs? (B : Conf) (bw maxw : Nat → Int) (k : Nat) (arr : List Int) : Option (List Nat) :=
  ((List.range k).foldlM (rootStep? B bw maxw arr) (0, [])).map (·.2)

/-- One iteration of the loop after the broadcast, WB 133-141: the state is `compactified_block` and `_cutoff_buckets`. -/
def expandStep? (bw maxw : Nat → Int) (l : List Nat) (s : Nat × (Nat → Nat)) (b : Nat) : Option (Nat × (Nat → Nat)) :=
  if maxw b < bw b then l[s.1]?.map fun c => (s.1 + 1, upd s.2 b c) else some (s.1, upd s.2 b 0)

/-- `compute_cutoff_buckets` after the broadcast, WB 133-143: the cutoff of each block. -/
def expand? (bw maxw : Nat → Int) (k : Nat) (l : List Nat) : Option (Nat → Nat) :=
  ((List.range k).foldlM (expandStep? bw maxw l) (0, fun _ => 0)).map (·.2)

/-- The candidates of one queue, NB 534-596: `d` is `block_weight_deltas_from`, `all` is `!par_partial_buckets`.  The targets are not modelled. -/
def select? (B : Conf) (all : Bool) (cutoff : Nat) (overload : Int) : List Elem → Int → Option (List Elem)
  | [], _ => some []
  | e :: es, d =>
    if overload ≤ d then some []
    else (B.bucket? e.gain).bind fun i =>
      if all = true ∨ i < cutoff then (select? B all cutoff overload es (d + e.weight)).map (e :: ·) else select? B all cutoff overload es d

/-- The cutoffs on all processes, NB 481-526: process 0 broadcasts its result. -/
def cutoffs? (B : Conf) (N k : Nat) (bw maxw : Nat → Int) (elems : Nat → Nat → List Elem) : Option (Nat → Nat) :=
  ((List.range N).mapM fun p => (sizes? B k (elems p)).map (compactify B bw maxw k)).bind fun arrs =>
    (reduce? arrs).bind fun arr => (rootCutoffs? B bw maxw k arr).bind fun l => expand? bw maxw k l

/-- The candidates of all processes for all blocks, NB 481-597. -/
def candidates? (B : Conf) (N k : Nat) (bw maxw : Nat → Int) (all : Bool) (elems : Nat → Nat → List Elem) : Option (List (List (List Elem))) :=
  (cutoffs? B N k bw maxw elems).bind fun cut => (List.range N).mapM fun p => (List.range k).mapM fun b =>
    select? B all (cut b) (max 0 (bw b - maxw b)) (elems p b) 0

end Verif.NodeBalancer.Sel
