import Verif.ClusterBalancer.Model

/-!
# The greedy builder of the clusters of the cluster balancer

`BatchedClusterBuilder`, `kaminpar-dist/refinement/balancer/clusters.cc` (CC) 244-461: a cluster is grown from a node of an overloaded block.  After
every node the builder remembers the prefix of the cluster whose best connection with another block is largest; the nodes after this prefix are
given back at the end.

Simplifications: the heap `_frontier` is the list of its nodes; which of them is the next one is arbitrary (`pick`), so the keys are not modelled.
The stopping policy is an arbitrary function of the nodes of the cluster (`stop`), so `_cur_block_conn` is not modelled.  `kInvalidBlockID` and
`kInvalidNodeID` are the same number, as they are for node IDs with 32 bits.  Weights are unbounded integers.
-/

namespace Verif.ClusterBalancer
open Verif

/-- The graph, the partition, node weights, block weights, limits of the block weights, `max_cluster_weight` and the arbitrary choices; the first
argument of the choices is the cluster, the second one is the list of its nodes so far. -/
structure Env where
  g : PGraph
  block : Nat → Nat
  nw : Nat → Int
  bw : Nat → Int
  maxw : Nat → Int
  limit : Int
  pick : Nat → List Nat → Nat
  stop : Nat → List Nat → Bool

/-- The block is overloaded, CC 296. -/
def Env.over (e : Env) (b : Nat) : Bool := decide (e.bw b > e.maxw b)

/-- The cluster that is grown: `_node_to_cluster`, the part of `_clusters` from the start of this cluster up to `_cur_pos`, `_frontier`,
`_cur_weight`, the keys of `_cur_conns`, `_best_prefix_pos` relative to the start, and `_best_prefix_conn`. -/
structure Grow where
  clusterOf : Nat → Option Nat
  cur : List Nat
  front : List Nat
  weight : Int
  keys : Nat → Int
  bestLen : Nat
  bestConn : Int

/-- `BinaryMaxHeap::peek_key` of `_cur_conns`, which holds all blocks, CC 431-436. -/
def peekKey (k : Nat) (keys : Nat → Int) : Int := ((List.range k).map keys).foldl max (keys 0)

/-- One edge in `add_to_cluster`, CC 343-356; `own` is `_cur_block`. -/
def connStep (e : Env) (id own : Nat) (clusterOf : Nat → Option Nat) (weight : Int) (keys : Nat → Int) (x : Nat × Int) : Nat → Int :=
  if x.1 < e.g.n ∧ clusterOf x.1 = some id then keys
  else if e.block x.1 = own then keys
  else if e.bw (e.block x.1) + weight ≤ e.maxw (e.block x.1) then upd keys (e.block x.1) (keys (e.block x.1) + x.2)
  else if keys (e.block x.1) > 0 then upd keys (e.block x.1) (-1)
  else keys

/-- `add_to_cluster`, CC 331-365. -/
def addToCluster (e : Env) (id own : Nat) (s : Grow) (u : Nat) : Grow :=
  let clusterOf := upd s.clusterOf u (some id)
  let keys := (e.g.adj u).foldl (connStep e id own clusterOf (s.weight + e.nw u)) s.keys
  { s with
    clusterOf := clusterOf
    cur := s.cur ++ [u]
    weight := s.weight + e.nw u
    keys := keys
    bestLen := if peekKey e.g.k keys ≥ s.bestConn then (s.cur ++ [u]).length else s.bestLen
    bestConn := if peekKey e.g.k keys ≥ s.bestConn then peekKey e.g.k keys else s.bestConn }

/-- One edge in `grow_cluster`, CC 314-323; `bu` is the block of the node. -/
def frontStep (e : Env) (bu : Nat) (clusterOf : Nat → Option Nat) (front : List Nat) (x : Nat × Int) : List Nat :=
  if x.1 < e.g.n ∧ clusterOf x.1 = none ∧ e.block x.1 = bu then if x.1 ∈ front then front else front ++ [x.1] else front

/-- One iteration of the loop of `grow_cluster`, CC 308-323. -/
def growStep (e : Env) (id own : Nat) (s : Grow) (u : Nat) : Grow :=
  let s' := addToCluster e id own { s with front := s.front.filter fun v => decide (v ≠ u) } u
  { s' with front := (e.g.adj u).foldl (frontStep e (e.block u) s'.clusterOf) s'.front }

/-- The loop of `grow_cluster`, CC 307-324, with at most `fuel` iterations. -/
def growLoop? (e : Env) (id own : Nat) : Nat → Grow → Option Grow
  | fuel, s =>
    match s.front with
    | [] => some s
    | x :: front =>
      if s.weight < e.limit ∧ e.stop id s.cur = false then
        match fuel with
        | 0 => none
        | fuel + 1 => growLoop? e id own fuel (growStep e id own s (((x :: front)[e.pick id s.cur % (x :: front).length]?).getD x))
      else some s

/-- The row of the cluster is set to zero, CC 371-373. -/
def zeroRow (k : Nat) (conns : Nat → Int) (id : Nat) : Nat → Int := (List.range k).foldl (fun f b => upd f (id * k + b) 0) conns

/-- One edge in `finish_cluster`, CC 377-383. -/
def rowStep (e : Env) (id : Nat) (clusterOf : Nat → Option Nat) (conns : Nat → Int) (x : Nat × Int) : Nat → Int :=
  if x.1 < e.g.n ∧ clusterOf x.1 = some id then conns else addConn e.g.k e.block id conns x

/-- The nodes that are given back, CC 368-370: the loop starts one position after the end of the best prefix. -/
def giveBack (s : Grow) : Nat → Option Nat := (s.cur.drop (s.bestLen + 1)).foldl (fun f u => upd f u none) s.clusterOf

/-- The state of the builder: the finished clusters, `_node_to_cluster` and `_conns`. -/
structure Built where
  sets : Sets
  conns : Nat → Int

/-- `finish_cluster`, CC 367-399. -/
def finishCluster (e : Env) (b : Built) (s : Grow) : Built :=
  ⟨⟨b.sets.members ++ [s.cur.take s.bestLen], giveBack s⟩,
    ((s.cur.take s.bestLen).flatMap e.g.adj).foldl (rowStep e b.sets.members.length (giveBack s)) (zeroRow e.g.k b.conns b.sets.members.length)⟩

/-- `grow_cluster`, CC 303-329.  There are at most as many iterations as nodes. -/
def growCluster? (e : Env) (b : Built) (seed : Nat) : Option Built :=
  (growLoop? e b.sets.members.length (e.block seed) e.g.n ⟨b.sets.clusterOf, [], [seed], 0, fun _ => 0, 0, 0⟩).map (finishCluster e b)

/-- One node in `build`, CC 294-300. -/
def buildStep? (e : Env) (b : Built) (u : Nat) : Option Built :=
  if e.over (e.block u) = true ∧ b.sets.clusterOf u = none then growCluster? e b u else some b

/-- `build`, CC 291-301; `junk` are the initial entries of `_conns`. -/
def build? (e : Env) (junk : Nat → Int) : Option Built :=
  (List.range e.g.n).foldlM (buildStep? e) ⟨⟨[], fun _ => none⟩, junk⟩

end Verif.ClusterBalancer
