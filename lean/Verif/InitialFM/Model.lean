import Verif.Graph.Basic
import Verif.Metrics.Model

/-!
# Model of the sequential 2-way FM refinement

Source: `kaminpar-shm/initial_partitioning/initial_fm_refiner.cc` (IF), `initial_fm_refiner.h` (IFH).

What is decided by random numbers, by the layout of the heaps or by floating point arithmetic is given by arbitrary
oracles: the order of the chunks and the permutations of `init_pq`, the coins of the queue selection, which of several
nodes with the same key a heap returns, when the stopping policy stops a round (both policies, IF 29-79) and when
`abort` stops the refinement (IF 214-218).  Further simplifications:
* A heap is the map from its nodes to their keys (`Verif/Heap` shows that `BinaryMinHeap` implements it), the marker is
  the set of marked nodes (`Verif/Marker`).
* Weights are integers without overflow; `std::numeric_limits<EdgeWeight>::max()` is the parameter `maxKey`.
* Assertions and debug output are not modelled.
`none` is an operation whose behaviour is undefined: `peek` of an empty heap, `push` of a node that is already in the
heap, or an odd sum in `edge_cut_seq`.
-/

namespace Verif.InitialFM
open Verif.Metrics (edgeCutSeq totalOverload)

/-- The graph, the limits and perfectly balanced weights of the blocks, `num_iterations` and the largest edge weight. -/
structure Cfg where
  g : Graph
  maxW : Nat → Int
  perfect : Nat → Int
  iterations : Nat
  maxKey : Int

/-- What the oracles decide in one iteration of the main loop of a round: whether the stopping policy stops it, the coin
of the queue selection, and the node among those with the smallest key. -/
structure Choice where
  stop : Bool
  coin : Bool
  tie : Nat

/-- What the oracles decide in one round: the order of the chunks, the permutation used for each chunk, the choices of
each iteration, and whether `abort` returns true after the round. -/
structure Oracle where
  chunks : List Nat
  perm : Nat → List Nat
  choice : Nat → Choice
  abort : Bool

/-- The two heaps: the key of each node. -/
abbrev Queues := Nat → Nat → Option Int

/-- The partition and its block weights, the heaps, the marker and the local variables of `round`, IF 241-247, together
with `_moves`. -/
structure St where
  part : Nat → Nat
  bw : Nat → Int
  queues : Queues
  marked : Nat → Bool
  moves : List Nat
  curOver : Int
  accOver : Int
  cur : Int
  acc : Int

/-- `empty`: nodes in a heap are less than `n`. -/
def isEmpty (c : Cfg) (q : Nat → Option Int) : Bool := (List.range c.g.n).all fun u => (q u).isNone

/-- The nodes one of which `peek_id` returns: those with the smallest key. -/
def smallest (c : Cfg) (q : Nat → Option Int) : List Nat :=
  (List.range c.g.n).filter fun u => match q u with
    | none => false
    | some key => (List.range c.g.n).all fun v => match q v with
      | none => true
      | some key' => key ≤ key'

/-- `peek_id` and `peek_key`, where `tie` selects among the nodes with the smallest key. -/
def peek? (c : Cfg) (q : Nat → Option Int) (tie : Nat) : Option (Nat × Int) :=
  match (smallest c q)[tie % (smallest c q).length]? with
  | none => none
  | some u => (q u).map fun key => (u, key)

/-- `push`. -/
def push? (qs : Queues) (b u : Nat) (key : Int) : Option Queues :=
  match qs b u with
  | some _ => none
  | none => some (upd qs b (upd (qs b) u (some key)))

/-- `pop`, `remove`. -/
def remove (qs : Queues) (b u : Nat) : Queues := upd qs b (upd (qs b) u none)

/-- `change_priority`. -/
def change (qs : Queues) (b u : Nat) (key : Int) : Queues := upd qs b (upd (qs b) u (some key))

/-- `_weighted_degrees[u]`, IF 406-415. -/
def wdeg (g : Graph) (u : Nat) : Int := (g.adj u).foldl (fun d e => d + e.2) 0

/-- `compute_gain_from_scratch`, IF 394-403. -/
def gain (g : Graph) (part : Nat → Nat) (u : Nat) : Int :=
  let ext := (g.adj u).foldl (fun x e => x + if part e.1 ≠ part u then e.2 else 0) 0
  wdeg g u - ext - ext

/-- `insert_node`, IF 383-391. -/
def insert? (g : Graph) (part : Nat → Nat) (qs : Queues) (u : Nat) : Option Queues :=
  if wdeg g u ≠ gain g part u then push? qs (part u) u (gain g part u) else some qs

/-- `kChunkSize`, IFH. -/
def chunkSize : Nat := 64

/-- The order in which `init_pq` visits the nodes, IF 352-377: the chunks `i * kChunkSize` for `i ≤ n / kChunkSize` in
the order `chunks`, and the nodes of the `j`-th chunk visited in the order `perm j`. -/
def visitOrder (size n : Nat) (chunks : List Nat) (perm : Nat → List Nat) : List Nat :=
  (chunks.zipIdx.flatMap fun (i, j) => (perm j).map fun x => i * size + x).filter fun u => u < n

/-- `init_pq`, IF 346-380. -/
def initPq? (g : Graph) (part : Nat → Nat) (o : Oracle) : Option Queues :=
  (visitOrder chunkSize g.n o.chunks o.perm).foldlM (insert? g part) fun _ _ => none

/-- `MaxWeightSelectionPolicy`, IF 83-94. -/
def selectWeight (c : Cfg) (s : St) (coin : Bool) : Nat :=
  let w0 := s.bw 0 - c.perfect 0
  let w1 := s.bw 1 - c.perfect 1
  if w1 > w0 ∨ (w0 = w1 ∧ coin) then 1 else 0

/-- The smallest key, or the largest edge weight for an empty heap, IF 104-107. -/
def loss (c : Cfg) (q : Nat → Option Int) : Int :=
  match peek? c q 0 with
  | none => c.maxKey
  | some (_, key) => key

/-- `MaxGainSelectionPolicy`, IF 97-115. -/
def selectGain (c : Cfg) (s : St) (coin : Bool) : Nat :=
  if loss c (s.queues 0) = loss c (s.queues 1) then selectWeight c s coin
  else if loss c (s.queues 1) < loss c (s.queues 0) then 1 else 0

/-- `MaxOverloadSelectionPolicy`, IF 117-135. -/
def select (c : Cfg) (s : St) (coin : Bool) : Nat :=
  let o0 := max 0 (s.bw 0 - c.maxW 0)
  let o1 := max 0 (s.bw 1 - c.maxW 1)
  if o0 = 0 ∧ o1 = 0 then selectGain c s coin
  else if o1 > o0 ∨ (o1 = o0 ∧ coin) then 1 else 0

/-- `PartitionedGraph::set_block`, `partitioned_graph.h` 152-165: the partition and the block weights. -/
def setBlock (g : Graph) (part : Nat → Nat) (bw : Nat → Int) (u dst : Nat) : (Nat → Nat) × (Nat → Int) :=
  let bw := upd bw (part u) (bw (part u) - g.w u)
  (upd part u dst, upd bw dst (bw dst + g.w u))

/-- One neighbour of the moved node, IF 287-310. -/
def visit? (g : Graph) (part : Nat → Nat) (marked : Nat → Bool) (dst : Nat) (qs : Queues) (e : Nat × Int) :
    Option Queues :=
  let v := e.1
  if marked v then some qs
  else
    let b := part v
    let delta := 2 * e.2 * if dst = b then 1 else -1
    match qs b v with
    | some key => if key + delta < wdeg g v then some (change qs b v (key + delta)) else some (remove qs b v)
    | none => push? qs b v (wdeg g v + delta)

/-- `BalancedMinCutAcceptancePolicy`, IF 139-150. -/
def accept (accOver curOver acc cur : Int) : Bool := curOver ≤ accOver ∧ cur < acc

/-- The block whose heap is used, IF 261-264. -/
def active (c : Cfg) (s : St) (coin : Bool) : Nat :=
  let a := select c s coin
  if isEmpty c (s.queues a) then 1 - a else a

/-- The body of the main loop of a round, IF 261-322. -/
def step? (c : Cfg) (s : St) (ch : Choice) : Option St := do
  let src := active c s ch.coin
  let dst := 1 - src
  let (u, delta) ← peek? c (s.queues src) ch.tie
  let marked := upd s.marked u true
  let (part, bw) := setBlock c.g s.part s.bw u dst
  let cur := s.cur + delta
  let curOver := totalOverload 2 bw c.maxW
  let queues ← (c.g.adj u).foldlM (visit? c.g part marked dst) (remove s.queues src u)
  if accept s.accOver curOver s.acc cur then
    some { part, bw, queues, marked, moves := [], curOver, accOver := curOver, cur, acc := cur }
  else some { part, bw, queues, marked, moves := s.moves ++ [u], curOver, accOver := s.accOver, cur, acc := s.acc }

/-- The main loop of a round, IF 258-323, for at most `fuel` iterations; `t` is the number of the iteration. -/
def loop? (c : Cfg) (choice : Nat → Choice) : Nat → Nat → St → Option St
  | 0, _, _ => none
  | fuel + 1, t, s =>
    if (isEmpty c (s.queues 0) ∧ isEmpty c (s.queues 1)) ∨ (choice t).stop then some s
    else (step? c s (choice t)).bind (loop? c choice fuel (t + 1))

/-- The rollback, IF 326-328. -/
def rollback (g : Graph) (part : Nat → Nat) (bw : Nat → Int) (moves : List Nat) : (Nat → Nat) × (Nat → Int) :=
  moves.foldl (fun s u => setBlock g s.1 s.2 u (1 - s.1 u)) (part, bw)

/-- The state before the main loop of a round, IF 237-247. -/
def start? (c : Cfg) (o : Oracle) (part : Nat → Nat) (bw : Nat → Int) : Option St := do
  let queues ← initPq? c.g part o
  let over := totalOverload 2 bw c.maxW
  some { part, bw, queues, marked := fun _ => false, moves := [], curOver := over, accOver := over, cur := 0, acc := 0 }

/-- `round`, IF 221-343: the partition, the block weights and the returned value.  Heaps, marker and moves are empty
at the end (IF 331-335) and at the beginning. -/
def round? (c : Cfg) (o : Oracle) (part : Nat → Nat) (bw : Nat → Int) : Option ((Nat → Nat) × (Nat → Int) × Int) := do
  let s ← start? c o part bw
  let s ← loop? c o.choice (c.g.n + 1) 0 s
  let (part, bw) := rollback c.g s.part s.bw s.moves
  some (part, bw, s.acc)

/-- The loop of `refine`, IF 203-208, from iteration `it` on, with `left` iterations left: the partition, the block
weights and the current cut. -/
def rounds? (c : Cfg) (o : Nat → Oracle) (it : Nat) : Nat → (Nat → Nat) → (Nat → Int) → Int →
    Option ((Nat → Nat) × (Nat → Int) × Int)
  | 0, part, bw, cur => some (part, bw, cur)
  | left + 1, part, bw, cur =>
    if 0 < cur ∧ ¬ (o (it - 1)).abort then do
      let (part, bw, delta) ← round? c (o it) part bw
      rounds? c o (it + 1) left part bw (cur + delta)
    else some (part, bw, cur)

/-- `refine`, IF 177-211: the partition, the block weights and the returned value. -/
def refine? (c : Cfg) (o : Nat → Oracle) (part : Nat → Nat) (bw : Nat → Int) :
    Option ((Nat → Nat) × (Nat → Int) × Bool) :=
  if c.iterations = 1 then do
    let (part, bw, _) ← round? c (o 0) part bw
    some (part, bw, false)
  else do
    let initial ← edgeCutSeq c.g part
    if initial = 0 then some (part, bw, false)
    else do
      let (part, bw, delta) ← round? c (o 0) part bw
      let (part, bw, cur) ← rounds? c o 1 (c.iterations - 1) part bw (initial + delta)
      some (part, bw, decide (cur < initial))

end Verif.InitialFM
