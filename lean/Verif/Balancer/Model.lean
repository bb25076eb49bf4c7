import Verif.Graph.Basic
import Verif.Partitioned.Props

/-!
# Model of the greedy balancer

Source: `kaminpar-shm/refinement/balancer/greedy_balancer.cc` (GB).

The main loop is a `parallel_for` over the blocks (GB 151-217): one task per block.  Here every block has its own thread
`b < k`, and all interleavings of their accesses to block weights, partition and marks are possible; that tasks
of one TBB thread run one after the other only removes interleavings.  The priorities of the nodes are not modelled: a task
may take any node of its queue (GB 169-172), target blocks (`compute_gain`, GB 326-367, `move_to_random_block`, GB 380-405) are
arbitrary blocks, and `add_to_pq` may reject the node or displace another node if the weight of the queue allows it.  Weights
are integers without overflow.
-/

namespace Verif.Balancer
open Verif.Partitioned (weightOf)

/-- The graph, the number of blocks and `max_block_weight`. -/
structure Cfg where
  g : Graph
  k : Nat
  maxW : Nat → Int

/-- `block_overload`, GB 420-428. -/
def Cfg.overload (c : Cfg) (bw : Nat → Int) (b : Nat) : Int := max 0 (bw b - c.maxW b)

/-- `metrics::total_overload`, `kaminpar-shm/metrics.h`. -/
def Cfg.totalOverload (c : Cfg) (bw : Nat → Int) : Int := ∑ b ∈ Finset.range c.k, c.overload bw b

/-- `_pq_weight`: the weight of the nodes of a queue (GB 172, 242, 249). -/
def pqWeight (w : Nat → Int) (pq : List Nat) : Int := (pq.map w).sum

/-- `add_to_pq`, GB 234-258, where `ov` is the overload of the block: the node is not added, which requires that the queue is
not empty and that its weight is at least the overload (GB 239); it is added; or it is added and the minimum, which is a
different node because its key is smaller, is removed because the weight of the queue remains at least the overload (GB
244-251). -/
inductive Add (w : Nat → Int) (ov : Int) (pq : List Nat) (u : Nat) : List Nat → Prop
  | skip (h : pq ≠ []) (hw : ov ≤ pqWeight w pq) : Add w ov pq u pq
  | push : Add w ov pq u (u :: pq)
  | swap (x : Nat) (h : x ∈ pq) (hw : ov ≤ pqWeight w (u :: pq) - w x) : Add w ov pq u (u :: pq.erase x)

/-- Nodes are added one after the other to the empty queue, GB 302-306. -/
inductive Fill (w : Nat → Int) (ov : Int) : List Nat → List Nat → Prop
  | nil : Fill w ov [] []
  | cons {l pq pq' : List Nat} (u : Nat) : Fill w ov l pq → Add w ov pq u pq' → Fill w ov (u :: l) pq'

/-- Where the task of a block is. -/
inductive Phase
  /-- not yet begun -/
  | wait
  /-- before the test of the loop, GB 162; `cur` is `current_overload` -/
  | head (cur : Int)
  /-- a node was removed from the queue, GB 169-173 -/
  | popped (u : Nat) (cur : Int)
  /-- inside `PartitionedGraph::move`, GB 370 -/
  | moving (u : Nat) (cur : Int)
  /-- the neighbours of a moved node are visited, GB 202-207 -/
  | scan (todo : List Nat) (cur : Int)
  /-- `v` was not marked, before its block is read, GB 203 -/
  | look (v : Nat) (todo : List Nat) (cur : Int)
  | done
  deriving DecidableEq, Repr

/-- The partitioned graph, the tasks, the queues, the marks, and the sum of the `delta` of each task (GB 197-199). -/
structure State where
  core : Partitioned.State
  ph : Nat → Phase
  pq : Nat → List Nat
  marked : Nat → Bool
  delta : Nat → Int

/-- A task that was inside `move` makes the next atomic step.  If the node was moved then the overload is updated (GB
196-199); if the move was rejected it tries another block or puts the node back. -/
def State.coreStep (c : Cfg) (s : State) (b u : Nat) (cur : Int) : State :=
  let core := s.core.next c.g.w b
  match s.core.pc b with
  | .moveStore .. => { s with
      core := core
      ph := upd s.ph b (.scan ((c.g.adj u).map Prod.fst) (cur - min cur (c.g.w u)))
      delta := upd s.delta b (s.delta b + min cur (c.g.w u)) }
  | _ => { s with core := core, ph := upd s.ph b (if core.pc b = .idle then .popped u cur else .moving u cur) }

/-- Calls `move(u, b, dst, max_block_weight(dst))`, GB 370. -/
def State.call (c : Cfg) (s : State) (b u dst : Nat) (cur : Int) : State :=
  { s with
    core := { s.core with pc := upd s.core.pc b (.moveLoad u b dst (c.maxW dst)) }
    ph := upd s.ph b (.moving u cur) }

/-- One step of the task of one block. -/
inductive Step (c : Cfg) : State → State → Prop
  /-- GB 152 -/
  | begin (s : State) (b : Nat) (hb : b < c.k) (h : s.ph b = .wait) :
      Step c s { s with ph := upd s.ph b (.head (c.overload s.core.bw b)) }
  /-- GB 162: the overload is gone or the queue is empty -/
  | stop (s : State) (b : Nat) (cur : Int) (hb : b < c.k) (h : s.ph b = .head cur) (hc : cur ≤ 0 ∨ s.pq b = []) :
      Step c s { s with ph := upd s.ph b .done }
  /-- GB 162-173 -/
  | pop (s : State) (b u : Nat) (cur : Int) (hb : b < c.k) (h : s.ph b = .head cur) (hc : 0 < cur) (hu : u ∈ s.pq b) :
      Step c s { s with ph := upd s.ph b (.popped u cur), pq := upd s.pq b ((s.pq b).erase u) }
  /-- the gain has changed (GB 212) or all moves were rejected (GB 209) -/
  | readd (s : State) (b u : Nat) (cur : Int) (pq : List Nat) (hb : b < c.k) (h : s.ph b = .popped u cur)
      (ha : Add c.g.w (c.overload s.core.bw b) (s.pq b) u pq) :
      Step c s { s with ph := upd s.ph b (.head cur), pq := upd s.pq b pq }
  /-- GB 181, 188 -/
  | try_ (s : State) (b u dst : Nat) (cur : Int) (hb : b < c.k) (h : s.ph b = .popped u cur) (hd : dst < c.k) :
      Step c s (s.call c b u dst cur)
  | core (s : State) (b u : Nat) (cur : Int) (hb : b < c.k) (h : s.ph b = .moving u cur) :
      Step c s (s.coreStep c b u cur)
  /-- all neighbours were visited -/
  | next (s : State) (b : Nat) (cur : Int) (hb : b < c.k) (h : s.ph b = .scan [] cur) :
      Step c s { s with ph := upd s.ph b (.head cur) }
  /-- `!_marker.get(v)`, GB 203 -/
  | scan (s : State) (b v : Nat) (todo : List Nat) (cur : Int) (hb : b < c.k) (h : s.ph b = .scan (v :: todo) cur) :
      Step c s { s with ph := upd s.ph b (if s.marked v then .scan todo cur else .look v todo cur) }
  /-- `block(v) != from`, GB 203 -/
  | other (s : State) (b v : Nat) (todo : List Nat) (cur : Int) (hb : b < c.k) (h : s.ph b = .look v todo cur)
      (hv : s.core.part v ≠ some b) : Step c s { s with ph := upd s.ph b (.scan todo cur) }
  /-- `block(v) == from`, GB 203-206 -/
  | add (s : State) (b v : Nat) (todo : List Nat) (cur : Int) (pq : List Nat) (hb : b < c.k) (h : s.ph b = .look v todo cur)
      (hv : s.core.part v = some b) (ha : Add c.g.w (c.overload s.core.bw b) (s.pq b) v pq) :
      Step c s { s with ph := upd s.ph b (.scan todo cur), pq := upd s.pq b pq, marked := upd s.marked v true }

inductive Reach (c : Cfg) : State → State → Prop
  | refl (s : State) : Reach c s s
  | step {s s' s'' : State} : Reach c s s' → Step c s' s'' → Reach c s s''

/-- The state after `init_pq`, GB 260-319.  Because the thread-local weights of the queues (GB 270-272) are never increased,
`need_more_nodes` (GB 292) is always true: all nodes of an overloaded block are put into thread-local queues and marked (GB
301-302); then they are added, in some order, to the queue of their block (GB 312-318). -/
structure Start (c : Cfg) (s : State) : Prop where
  core : Partitioned.Init c.g.n c.k c.k c.g.w s.core
  assigned : ∀ u, u < c.g.n → ∃ b, s.core.part u = some b
  wait : ∀ b, b < c.k → s.ph b = .wait
  delta : ∀ b, b < c.k → s.delta b = 0
  marked : ∀ u b, u < c.g.n → s.core.part u = some b → s.marked u = decide (0 < c.overload s.core.bw b)
  full : ∀ b, b < c.k → 0 < c.overload s.core.bw b →
    ∃ l, l.Perm ((List.range c.g.n).filter fun u => s.core.part u = some b) ∧ Fill c.g.w (c.overload s.core.bw b) l (s.pq b)
  empty : ∀ b, b < c.k → c.overload s.core.bw b = 0 → s.pq b = []

/-- The return value of `refine`, GB 121-135, 466-470: `s` is the state after the main loop. -/
def result (c : Cfg) (s0 s : State) : Bool :=
  if c.totalOverload s0.core.bw = 0 then true
  else decide (c.totalOverload s0.core.bw - ∑ b ∈ Finset.range c.k, s.delta b = 0)

/-- A run of `refine`, GB 462-484: nothing happens if there is no overload, otherwise all tasks run to the end. -/
def Run (c : Cfg) (s0 s : State) : Prop :=
  if c.totalOverload s0.core.bw = 0 then s = s0 else Reach c s0 s ∧ ∀ b, b < c.k → s.ph b = .done

end Verif.Balancer
