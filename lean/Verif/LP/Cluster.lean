import Verif.LP.Refine

/-!
# Model of label propagation clustering

Sources: `kaminpar-shm/label_propagation.h` (LP), `kaminpar-shm/coarsening/clustering/lp_clusterer.cc` (LC).

`compute_clustering` (LC 88-108) performs iterations of label propagation and then merges isolated nodes and, in
the default configuration, nodes with the same favored cluster ("two-hop clustering", `MATCH_THREADWISE`).
Relabeling before the second phase (off by default) and the two-hop variants that are not thread-wise are not modelled
here.  Memory is sequentially consistent, weights are integers without overflow.
-/

namespace Verif.LP

/-! ## Moving weight between clusters -/

/-- Where a thread is inside `try_node_move`, LP 818-841. -/
inductive CPC
  | idle
  /-- before the load and check `_cluster_weights[new] + delta <= max`, LP 2299 -/
  | check (u src dst : Nat)
  /-- before `fetch_add`, LP 2300 -/
  | add (u src dst : Nat)
  /-- before `fetch_sub`, LP 2301 -/
  | sub (u src dst : Nat)
  /-- before `move_node`, LP 828, 2258 -/
  | store (u src dst : Nat)
  /-- before `cluster_weight(u_cluster) == 0`, LP 832-833 -/
  | look (u src : Nat)
  deriving DecidableEq, Repr

/-- The node a thread moves. -/
def CPC.node? : CPC → Option Nat
  | .idle => none
  | .check u .. | .add u .. | .sub u .. | .store u .. | .look u .. => some u

/-- Clusters of the nodes, `_cluster_weights`, the threads, and for each cluster how often a thread found it
empty: each time `_current_num_clusters` is decreased (LP 1924-1930, 2003-2009, at the end of a chunk; LP 2040-2042). -/
structure Core where
  cl : Nat → Nat
  cw : Nat → Int
  pc : Nat → CPC
  emptied : Nat → Nat

/-- The next atomic step of a thread. -/
def Core.next (w : Nat → Int) (maxW : Int) (s : Core) (t : Nat) : Core :=
  match s.pc t with
  | .idle => s
  | .check u src dst =>
    if s.cw dst + w u ≤ maxW then { s with pc := upd s.pc t (.add u src dst) } else { s with pc := upd s.pc t .idle }
  | .add u src dst => { s with cw := upd s.cw dst (s.cw dst + w u), pc := upd s.pc t (.sub u src dst) }
  | .sub u src dst => { s with cw := upd s.cw src (s.cw src - w u), pc := upd s.pc t (.store u src dst) }
  | .store u src dst => { s with cl := upd s.cl u dst, pc := upd s.pc t (.look u src) }
  | .look _ src =>
    if s.cw src = 0 then { s with pc := upd s.pc t .idle, emptied := upd s.emptied src (s.emptied src + 1) }
    else { s with pc := upd s.pc t .idle }

/-! ## Label propagation -/

/-- The clusterer: graph, maximum cluster weight, communities, limit on the neighbours, tie breaking.  The default
`accept_neighbor` accepts all neighbours. -/
structure CCfg where
  g : Graph
  maxW : Int
  comm : Nat → Nat
  lim : Nat
  uniform : Bool

/-- The selection rule of the clusterer. -/
def CCfg.rule (c : CCfg) : Rule := .cluster c.uniform c.comm

/-- Threads move nodes or search for the best cluster of a node. -/
structure CState where
  core : Core
  look : Nat → Option Search

/-- Thread `t` ends its search and tries to move the node. -/
def CState.call (s : CState) (t u src dst : Nat) : CState where
  core := { s.core with pc := upd s.core.pc t (.check u src dst) }
  look := upd s.look t none

/-- One step of one of `T` threads in an iteration of label propagation. -/
inductive CStep (c : CCfg) (T : Nat) : CState → CState → Prop
  /-- `handle_node`, LP 342-343, of a node nobody else works on -/
  | start (s : CState) (t u : Nat) (ht : t < T) (hu : u < c.g.n) (hl : s.look t = none)
      (hidle : s.core.pc t = .idle)
      (hfree : ∀ t', t' < T → (s.core.pc t').node? ≠ some u ∧ ∀ q, s.look t' = some q → q.u ≠ u) :
      CStep c T s { s with look := upd s.look t (some ⟨u, s.core.cl u, (c.g.adj u).take c.lim, []⟩) }
  /-- one neighbour is read, LP 487-496, 571-587, 666-679 -/
  | see (s : CState) (t : Nat) (q : Search) (l1 l2 : List (Nat × Int)) (e : Nat × Int) (ht : t < T)
      (hl : s.look t = some q) (htodo : q.todo = l1 ++ e :: l2) :
      CStep c T s { s with look := upd s.look t (some { q with
        todo := l1 ++ l2, m := addTo q.m (s.core.cl e.1) e.2 }) }
  /-- the first phase postpones a node, LP 598-602 -/
  | giveUp (s : CState) (t : Nat) (q : Search) (ht : t < T) (hl : s.look t = some q) :
      CStep c T s { s with look := upd s.look t none }
  /-- the best cluster is the node's own cluster -/
  | keep (s : CState) (t : Nat) (q : Search) (ownW : Int) (fav : Bool) (r : Choice) (ht : t < T)
      (hl : s.look t = some q) (htodo : q.todo = [])
      (hr : Picks c.rule ⟨c.g.w q.u, q.own, ownW, fun _ => c.maxW, fav⟩ q.m (fun _ _ => True) r)
      (heq : s.core.cl q.u = r.best) :
      CStep c T s { s with look := upd s.look t none }
  /-- the best cluster is another cluster -/
  | move (s : CState) (t : Nat) (q : Search) (ownW : Int) (fav : Bool) (r : Choice) (ht : t < T)
      (hl : s.look t = some q) (htodo : q.todo = [])
      (hr : Picks c.rule ⟨c.g.w q.u, q.own, ownW, fun _ => c.maxW, fav⟩ q.m (fun _ _ => True) r)
      (hne : s.core.cl q.u ≠ r.best) :
      CStep c T s (s.call t q.u q.own r.best)
  /-- an atomic step of `try_node_move` -/
  | core (s : CState) (t : Nat) (ht : t < T) (hbusy : s.core.pc t ≠ .idle) :
      CStep c T s { s with core := s.core.next c.g.w c.maxW t }

/-- Any number of steps. -/
inductive CReach (c : CCfg) (T : Nat) : CState → CState → Prop
  | refl (s : CState) : CReach c T s s
  | step {s s' s'' : CState} : CReach c T s s' → CStep c T s' s'' → CReach c T s s''

/-- `reset_state`, LP 1195-1219, and LC 172-178: every node is its own cluster. -/
def CState.init (c : CCfg) : CState where
  core := { cl := id, cw := c.g.w, pc := fun _ => .idle, emptied := fun _ => 0 }
  look := fun _ => none

/-! ## Merging isolated nodes and nodes with the same favored cluster -/

/-- Where a thread is inside the loop over the nodes, LP 896-911 and LP 953-1010. -/
inductive MPC
  | idle
  /-- two-hop: before the check of the cluster weight, LP 947-957; `c` is the cluster of `u` -/
  | test (u c : Nat)
  /-- before the load of the weight that is to be moved, LP 902, 984 -/
  | delta (u c r : Nat)
  /-- before the check of the weight of the representative `r`, LP 2299 -/
  | check (u c r : Nat) (d : Int)
  | add (u c r : Nat) (d : Int)
  | sub (u c r : Nat) (d : Int)
  /-- before `move_node`, LP 904, 989, 993 -/
  | store (u c r : Nat)
  deriving DecidableEq, Repr

/-- The node a thread works on. -/
def MPC.node? : MPC → Option Nat
  | .idle => none
  | .test u .. | .delta u .. | .check u .. | .add u .. | .sub u .. | .store u .. => some u

/-- The two passes: `isolated` is `handle_isolated_nodes_impl` (LP 885-917), otherwise it is
`handle_two_hop_nodes_threadwise_impl` (LP 932-1016).  `matching` is the template parameter `match`; `key u` is
`_favored_clusters[u]`, and a constant for isolated nodes, where a thread has a single representative. -/
structure MCfg where
  g : Graph
  maxW : Int
  isolated : Bool
  matching : Bool
  key : Nat → Nat

/-- Clusters, weights, threads, the nodes already visited, and the representatives of the threads:
`current_cluster_ets` (LP 890) or `matching_map_ets` (LP 938). -/
structure MState where
  cl : Nat → Nat
  cw : Nat → Int
  pc : Nat → MPC
  done : Nat → Bool
  rep : Nat → Nat → Option Nat

/-- The thread has decided that `u` is to be merged: with the representative if there is one (LP 900, LP 978-984),
otherwise `c` becomes the representative (LP 909, 979). -/
def MState.choose (m : MCfg) (s : MState) (t u c : Nat) : MState :=
  match s.rep t (m.key u) with
  | none => { s with pc := upd s.pc t .idle, rep := upd s.rep t (upd (s.rep t) (m.key u) (some c)) }
  | some r => { s with pc := upd s.pc t (.delta u c r) }

/-- The check of the weight failed: the cluster of `u` becomes the representative (LP 909, 997), but a two-hop
matching moves the node nevertheless (LP 987-990; there is only an assertion). -/
def MState.reject (m : MCfg) (s : MState) (t u c r : Nat) : MState :=
  if m.matching && !m.isolated then { s with pc := upd s.pc t (.store u c r) }
  else { s with pc := upd s.pc t .idle, rep := upd s.rep t (upd (s.rep t) (m.key u) (some c)) }

/-- The next step of a thread that works on a node.  `max / 2` of a non-negative weight (LP 950). -/
def MState.next (m : MCfg) (s : MState) (t : Nat) : MState :=
  match s.pc t with
  | .idle => s
  | .test u c =>
    if s.cw c > m.maxW / 2 ∨ s.cw c ≠ m.g.w c then { s with pc := upd s.pc t .idle } else s.choose m t u c
  | .delta u c r => { s with pc := upd s.pc t (.check u c r (s.cw c)) }
  | .check u c r d => if s.cw r + d ≤ m.maxW then { s with pc := upd s.pc t (.add u c r d) } else s.reject m t u c r
  | .add u c r d => { s with cw := upd s.cw r (s.cw r + d), pc := upd s.pc t (.sub u c r d) }
  | .sub u c r d => { s with cw := upd s.cw c (s.cw c - d), pc := upd s.pc t (.store u c r) }
  | .store u _ r =>
    { s with cl := upd s.cl u r, pc := upd s.pc t .idle,
             rep := if m.matching then upd s.rep t (upd (s.rep t) (m.key u) none) else s.rep }

/-- A thread begins with node `u`, LP 897-898, 941-943, 960-976: is it considered at all? -/
def MState.begin (m : MCfg) (s : MState) (t u : Nat) : MState :=
  let s := { s with done := upd s.done u true }
  if m.isolated then
    if m.g.adj u = [] then s.choose m t u (s.cl u) else s
  else
    if m.g.adj u = [] then s
    else if u ≠ s.cl u then s
    else { s with pc := upd s.pc t (.test u (s.cl u)) }

/-- One step of one of `T` threads; `parallel_for` visits each node once. -/
inductive MStep (m : MCfg) (T : Nat) : MState → MState → Prop
  | begin (s : MState) (t u : Nat) (ht : t < T) (hu : u < m.g.n) (hidle : s.pc t = .idle) (hnew : s.done u = false) :
      MStep m T s (s.begin m t u)
  | next (s : MState) (t : Nat) (ht : t < T) (hbusy : s.pc t ≠ .idle) : MStep m T s (s.next m t)

inductive MReach (m : MCfg) (T : Nat) : MState → MState → Prop
  | refl (s : MState) : MReach m T s s
  | step {s s' s'' : MState} : MReach m T s s' → MStep m T s' s'' → MReach m T s s''

/-- The beginning of a pass. -/
def MState.init (cl : Nat → Nat) (cw : Nat → Int) : MState := ⟨cl, cw, fun _ => .idle, fun _ => false, fun _ _ => none⟩

/-- A complete pass: all nodes were visited. -/
def MPass (m : MCfg) (T : Nat) (cl : Nat → Nat) (cw : Nat → Int) (s : MState) : Prop :=
  MReach m T (MState.init cl cw) s ∧ (∀ t, t < T → s.pc t = .idle) ∧ ∀ u, u < m.g.n → s.done u = true

end Verif.LP
