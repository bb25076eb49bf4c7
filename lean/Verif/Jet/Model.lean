import Verif.SparseGains.Model
import Verif.SparseGains.Spec
import Verif.Balancer.Model
import Verif.Metrics.Model

/-!
# Model of the Jet refiner

Source: `kaminpar-shm/refinement/jet/jet_refiner.cc` (JR), with the sparse gain cache (`Verif/SparseGains`), the greedy balancer
(`Verif/Balancer`), the partitioned graph (`Verif/Partitioned`) and the edge cut (`Verif/Metrics`).

The parallel loops that find and filter moves (JR 95-163) read only what they do not write, so each node is computed from the
state before the loop.  The loops that change the partition (JR 166-174, 214) are executions of `set_block` in any interleaving of
their atomic steps; the updates of the gain cache by different threads are also interleaved in any way.  Comparisons
of floating point numbers (JR 119, 195) are arbitrary predicates of the integers that enter.
-/

namespace Verif.Jet
open Verif.Partitioned (Op)
open Verif.Gains (Move)
open Verif.SparseGains (Layout)

/-- The graph, the number of blocks and their limits, the number of threads; the width of edge weights, degree threshold and degree
buckets for the gain cache; the options of Jet. -/
structure Cfg where
  g : Graph
  k : Nat
  maxW : Nat → Int
  T : Nat
  W : Nat
  threshold : Nat
  sorted : Bool
  bsize : Nat → Nat
  nb : Nat
  /-- `_num_rounds` -/
  rounds : Nat
  /-- `num_iterations`, `num_fruitless_iterations` -/
  iterations : Nat
  fruitless : Nat
  /-- JR 119 in a round: `best_gain > -floor(gain_temp * conn)` -/
  accept : Nat → Int → Int → Bool
  /-- JR 195: the cut was improved enough, given the best and the current cut -/
  improved : Int → Int → Bool

/-- JR 77-82: 0 stands for the largest `int`. -/
def limit (x : Nat) : Nat := if x = 0 then 2 ^ 31 - 1 else x

/-- Where `refine` is. -/
inductive Ctrl
  /-- before the comparison of the outer loop, JR 86 -/
  | round (r : Nat)
  /-- before an iteration, JR 94, with the numbers of iterations and of fruitless iterations -/
  | iter (r i f : Nat)
  /-- before JR 212 -/
  | rollback (r : Nat)
  | done
  deriving DecidableEq, Repr

/-- The variables of `refine`.  `seen` are the partitions at the ends of the iterations so far; it only serves to state the
property. -/
structure St where
  part : Nat → Option Nat
  bw : Nat → Int
  L : Layout
  gc : SparseGains.St
  lock : Nat → Bool
  best : Nat → Nat
  bestCut : Int
  lastBest : Bool
  ctrl : Ctrl
  seen : List (Nat → Nat)

/-- `p_graph.block(u)`. -/
def blk (part : Nat → Option Nat) (u : Nat) : Nat := (part u).getD 0

/-! ## Finding and filtering moves -/

/-- The loop over the blocks, JR 104-117: best gain and best block. -/
def bestMove? (c : Cfg) (s : St) (u «from» : Nat) : Option (Int × Nat) :=
  (List.range c.k).foldlM (fun b «to» =>
    if «to» = «from» then some b
    else (SparseGains.gain? s.L s.gc.cache u «from» «to»).map fun gain => if gain > b.1 then (gain, «to») else b)
    (-2 ^ (c.W - 1), «from»)

/-- `next_partition[u]`, JR 96-124. -/
def findMove? (c : Cfg) (r : Nat) (s : St) (u : Nat) : Option Nat :=
  let «from» := blk s.part u
  if s.lock u then some «from»
  else do
    let border ← SparseGains.isBorder? s.L s.gc u «from»
    if !border then some «from»
    else do
      let b ← bestMove? c s u «from»
      let conn ← SparseGains.conn? s.L s.gc.cache u «from»
      some (if c.accept r b.1 conn then b.2 else «from»)

/-- `block_v`, JR 141-150. -/
def assumedBlock? (s : St) (next : Nat → Nat) (u : Nat) (gainU : Int) (v : Nat) : Option Nat :=
  if blk s.part v ≠ next v then
    (SparseGains.gain? s.L s.gc.cache v (blk s.part v) (next v)).map fun gainV =>
      if gainV > gainU ∨ gainV = gainU ∧ v < u then next v else blk s.part v
  else some (blk s.part v)

/-- `lock[u]` after JR 128-162. -/
def filterMove? (c : Cfg) (s : St) (next : Nat → Nat) (u : Nat) : Option Bool :=
  let «from» := blk s.part u
  let «to» := next u
  if «from» = «to» then some false
  else do
    let gainU ← SparseGains.gain? s.L s.gc.cache u «from» «to»
    let gain ← (c.g.adj u).foldlM (fun (gain : Int) e =>
      (assumedBlock? s next u gainU e.1).map fun b =>
        if «to» = b then gain + e.2 else if «from» = b then gain - e.2 else gain) 0
    some (decide (gain > 0))

/-! ## Executing moves -/

/-- A partitioned graph no thread works on. -/
def quiet (part : Nat → Option Nat) (bw : Nat → Int) : Partitioned.State := { part, bw, pc := fun _ => .idle, hist := [] }

/-- A parallel loop that performs each of the operations once: `set_block`, JR 171 and 214. -/
def Exec (c : Cfg) (ops : List Op) (s s' : Partitioned.State) : Prop :=
  Partitioned.Reach c.g.n c.k c.T c.g.w (· ∈ ops) s s' ∧ (∀ t, t < c.T → s'.pc t = .idle) ∧
    (s'.hist.map Prod.fst).Perm ops

/-- The calls of `set_block` for some nodes. -/
def setOps (us : List Nat) (p : Nat → Nat) : List Op := us.map fun u => .setBlock u (p u)

/-- The locked nodes, JR 167. -/
def locked (c : Cfg) (lock : Nat → Bool) : List Nat := (List.range c.g.n).filter lock

/-- The moves reported to the gain cache for the locked nodes, JR 168-172. -/
def lockedMoves (c : Cfg) (part : Nat → Option Nat) (next : Nat → Nat) (lock : Nat → Bool) : List Move :=
  (locked c lock).map fun u => ⟨u, blk part u, next u⟩

/-- The moves that the balancer reports to the gain cache, `greedy_balancer.cc` 369-378: the successful ones. -/
def movesOf (hist : List (Op × Bool)) : List Move :=
  hist.filterMap fun o => match o with
    | (.move u src dst _, true) => some ⟨u, src, dst⟩
    | _ => none

/-- The balancer for these blocks. -/
def Cfg.balancer (c : Cfg) : Balancer.Cfg := { g := c.g, k := c.k, maxW := c.maxW }

/-- What a state looks like after an iteration (JR 181-210) that ended with the cut `cut` and is followed by `ctrl`. -/
def St.finish (s : St) (part : Nat → Option Nat) (bw : Nat → Int) (cache : Nat → Nat) (lock : Nat → Bool) (cut : Int) (ctrl : Ctrl) : St where
  part := part
  bw := bw
  L := s.L
  gc := { s.gc with cache := cache }
  lock := lock
  best := if cut ≤ s.bestCut then blk part else s.best
  bestCut := if cut < s.bestCut then cut else s.bestCut
  lastBest := if cut ≤ s.bestCut then true else false
  ctrl := ctrl
  seen := s.seen ++ [blk part]

/-- The condition of the inner loop, JR 191-210: `i`, `f` are the counters before the iteration. -/
def nextCtrl (c : Cfg) (bestCut cut : Int) (r i f : Nat) : Ctrl :=
  let f := if c.improved bestCut cut then 0 else f + 1
  if i + 1 < limit c.iterations ∧ f < limit c.fruitless then .iter r (i + 1) f else .rollback r

/-- `metrics::edge_cut`: the ranges of the parallel loop cover the nodes. -/
def EdgeCut (c : Cfg) (part : Nat → Option Nat) (cut : Int) : Prop :=
  ∃ T chunks, (∀ x ∈ chunks, x.1 < T) ∧ (chunks.flatMap Prod.snd).Perm (List.range c.g.n) ∧
    Metrics.edgeCutPar c.g (blk part) T chunks = some cut

/-- One iteration, JR 95-210. -/
inductive Iter (c : Cfg) (r i f : Nat) (s : St) : St → Prop
  | mk (next : Nat → Nat) (lock : Nat → Bool) (p : Partitioned.State) (evs : List SparseGains.Step) (cache : Nat → Nat)
      (b b' : Balancer.State) (evs' : List SparseGains.Step) (cache' : Nat → Nat) (cut : Int)
      (hnext : ∀ u, u < c.g.n → findMove? c r s u = some (next u))
      (hlock : ∀ u, u < c.g.n → filterMove? c s next u = some (lock u))
      (hexec : Exec c (setOps (locked c lock) next) (quiet s.part s.bw) p)
      (hevs : SparseGains.Interleaved c.g (lockedMoves c s.part next lock) evs)
      (hcache : evs.foldlM (SparseGains.step? c.g s.L) s.gc.cache = some cache)
      (hb : b.core = quiet p.part p.bw) (hstart : Balancer.Start c.balancer b) (hrun : Balancer.Run c.balancer b b')
      (hevs' : SparseGains.Interleaved c.g (movesOf b'.core.hist) evs')
      (hcache' : evs'.foldlM (SparseGains.step? c.g s.L) cache = some cache')
      (hcut : EdgeCut c b'.core.part cut) :
      Iter c r i f s (s.finish b'.core.part b'.core.bw cache' lock cut (nextCtrl c s.bestCut cut r i f))

/-- `gain_cache.initialize(p_graph.graph(), p_graph)`, JR 58 and 217. -/
def InitCache (c : Cfg) (part : Nat → Option Nat) (oldOff : Nat → Nat) (old : SparseGains.St) (L : Layout) (gc : SparseGains.St) : Prop :=
  ∃ order, order.Perm (List.range c.g.n) ∧
    SparseGains.init? c.W c.k c.threshold c.sorted c.bsize c.nb oldOff old c.g (blk part) order = some (L, gc)

/-- The state before the outer loop, JR 56-86. -/
structure Start (c : Cfg) (part : Nat → Option Nat) (bw : Nat → Int) (s : St) : Prop where
  isPart : s.part = part
  isBw : s.bw = bw
  cache : ∃ oldOff old, InitCache c part oldOff old s.L s.gc
  lock : ∀ u, u < c.g.n → s.lock u = false
  best : ∀ u, u < c.g.n → s.best u = blk part u
  cut : EdgeCut c part s.bestCut
  lastBest : s.lastBest = true
  ctrl : s.ctrl = .round 0
  seen : s.seen = []

inductive Step (c : Cfg) : St → St → Prop
  /-- JR 86-88 -/
  | enter (s : St) (r : Nat) (h : s.ctrl = .round r) (hr : r < c.rounds) : Step c s { s with ctrl := .iter r 0 0 }
  /-- JR 86, 224 -/
  | leave (s : St) (r : Nat) (h : s.ctrl = .round r) (hr : c.rounds ≤ r) : Step c s { s with ctrl := .done }
  /-- JR 94-210 -/
  | iter (s s' : St) (r i f : Nat) (h : s.ctrl = .iter r i f) (hi : Iter c r i f s s') : Step c s s'
  /-- JR 213: the last iteration is the best -/
  | keep (s : St) (r : Nat) (h : s.ctrl = .rollback r) (hb : s.lastBest = true) : Step c s { s with ctrl := .round (r + 1) }
  /-- JR 214-219 -/
  | rollback (s : St) (r : Nat) (p : Partitioned.State) (L : Layout) (gc : SparseGains.St) (h : s.ctrl = .rollback r)
      (hb : s.lastBest = false) (hexec : Exec c (setOps (List.range c.g.n) s.best) (quiet s.part s.bw) p)
      (hcache : InitCache c p.part s.L.off s.gc L gc) :
      Step c s { s with part := p.part, bw := p.bw, L := L, gc := gc, ctrl := .round (r + 1) }

inductive Reach (c : Cfg) : St → St → Prop
  | refl (s : St) : Reach c s s
  | step {s s' s'' : St} : Reach c s s' → Step c s' s'' → Reach c s s''

end Verif.Jet
