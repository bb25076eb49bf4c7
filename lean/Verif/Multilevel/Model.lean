import Verif.Subgraph.Model
import Verif.Limits.Model

/-!
# Model of the multilevel drivers

Sources, in `kaminpar-shm/partitioning`: `deep/deep_multilevel.cc` (DM), `deep/async_initial_partitioning.cc` (AI),
`deep/sync_initial_partitioning.cc` (SI), `kway/kway_multilevel.cc` (KM), `rb/rb_multilevel.cc` (RB), `helper.cc`
(HC), `helper.h` (HH), `partition_utils.cc` (PU); `graphutils/subgraph_extractor.h` (SH).

The drivers call a coarsener, a bipartitioner and a refiner.  These are oracles here (`Env`): every call is given a
key that names the call site, so that two calls may answer differently (other threads, other random numbers).  What
is assumed of them is stated in `Env.Ok` (`Spec.lean`); the areas that model them prove it.

Not modelled: the mode COMMUNITIES of the initial partitioning (v-cycles), timers, logging and dumps.
-/

namespace Verif.Multilevel
open Verif.Math Verif.Subgraph Verif.Blocks Verif.Limits

/-- Names a call site. -/
abbrev Key := List Nat

/-- `PartitionedGraph`: a graph, the number of blocks, and the block of every node. -/
structure PG where
  g : LGraph
  k : Nat
  part : Nat → Nat

/-- `total_node_weight()`. -/
def total (g : LGraph) : Int := (g.map Prod.fst).sum

/-- The numbers that `create_kway_context` reads from a graph. -/
def info (g : LGraph) : GInfo := ⟨g.length, total g, (g.map Prod.fst).foldl max 0⟩

/-- The parts the drivers are made of. -/
structure Env where
  /-- `Coarsener::coarsen`: the level that was pushed (coarse graph and cluster of every node), if any, and the
  returned value.  `NoopCoarsener` pushes nothing and returns `false`. -/
  coarsen : Key → LGraph → Option (LGraph × (Nat → Nat)) × Bool
  /-- `InitialBipartitionerWorkerPool::bipartition(graph, 0, 1, true)` -/
  bipart : Key → LGraph → Nat → Nat
  /-- the bipartitions inside of `extend_partition` -/
  bip : Key → LGraph → Nat → Nat → Nat → Nat
  /-- `Refiner::refine`: the new block of every node -/
  refine : Key → PG → PCtx → Nat → Nat
  /-- `Refiner::refine` with the limits of a bisection, which may be undefined -/
  refine2 : Key → PG → Option PCtx → Nat → Nat
  /-- schedules, orders and initial memory contents of the extractions, see `Subgraph/Model.lean` -/
  sched : Key → PG → Sched
  order : Key → Nat → List Nat
  map0 : Key → Nat → Nat
  slot0 : Key → Nat → Nat
  nodes0 : Key → Nat → Nat
  mapping0 : Key → Nat → Nat
  cells : Key → Cell → Int
  lazyMem : Key → Nat → Mem
  tmp : Key → Nat → Mem

/-- `InitialPartitioningMode`. -/
inductive Mode
  | sequential
  | sync
  | async
  deriving DecidableEq

/-- The parts of `Context` that the drivers read. -/
structure Cfg where
  rd : ℚ → ℚ
  /-- `partition` -/
  input : PCtx
  /-- `coarsening.contraction_limit` -/
  limit : Nat
  /-- `parallel.num_threads` -/
  threads : Nat
  /-- `partitioning.deep_initial_partitioning_load` -/
  load : ℚ
  mode : Mode
  /-- `partitioning.use_lazy_subgraph_memory` -/
  lazy : Bool
  /-- `partitioning.refine_after_extending_partition` -/
  refineAfter : Bool
  /-- `partitioning.min_consecutive_seq_bipartitioning_levels` -/
  minLevels : Nat
  /-- `partitioning.use_adaptive_epsilon` (for bisections) and `std::pow` -/
  adaptive : Bool
  pow : ℚ → ℚ → ℚ
  /-- `partitioning.rb_enable_kway_toplevel_refinement` -/
  rbToplevel : Bool

/-- `_input_ctx.partition.k`. -/
def Cfg.k (cfg : Cfg) : Nat := cfg.input.k

/-- `compute_num_threads_for_parallel_ip`, PU 125-129: undefined if the product is less than one. -/
def Cfg.ipThreads? (cfg : Cfg) : Option Nat := floor2? 32 ⌊cfg.rd (cfg.rd cfg.threads * cfg.load)⌋.toNat

/-! ## Extending a partition -/

/-- The memory for extracted subgraphs: its sizes, and a flag that is cleared by a store outside of it.  Its contents
are arbitrary whenever it is used (`Env.cells`). -/
structure St where
  size : Sizes
  ok : Bool

/-- `weighted_resize`, SH 72-83. -/
def weightedResize (n k m nw mw : Nat) : Sizes := ⟨n + k, m, if nw = 0 then 0 else nw + k, mw⟩

/-- `resize`, SH 62-70. -/
def resize (n k m : Nat) (nodeWeighted edgeWeighted : Bool) : Sizes :=
  weightedResize n k m (if nodeWeighted then n else 0) (if edgeWeighted then m else 0)

/-- One round of `extend_partition_lazy_extraction` (HC 246-338) or `extend_partition` (HC 375-436). -/
def extendOnce? (cfg : Cfg) (e : Env) (lazy : Bool) (key : Key) (s : St) (p : PG) (desired : Nat) :
    Option (PG × St) :=
  if lazy then do
    let r ← extendLazy p.g p.part p.k cfg.k desired (e.bip key) (e.map0 key) (e.sched key p) (e.nodes0 key)
      (e.mapping0 key) (e.slot0 key) (e.lazyMem key) (e.tmp key) (e.order key p.g.length)
    some (⟨p.g, desired, r.1⟩, { s with ok := s.ok && r.2.2.all (·.2) })
  else do
    let r ← extendPartition p.g p.part p.k cfg.k desired (e.bip key) (e.map0 key) (e.sched key p)
      ⟨e.cells key, s.size, s.ok⟩ (e.slot0 key) (e.tmp key) (e.order key p.k) (e.order key p.g.length)
    some (⟨p.g, desired, r.1⟩, { s with ok := r.2.2.ok })

/-- The loop HC 231-243 and 360-372; the products of 32-bit unsigned integers wrap.  The recursive call asks for
`factor * k` blocks, so that its own loop ends at once: it is one round. -/
def extendLoop? (cfg : Cfg) (e : Env) (lazy : Bool) (threads desired : Nat) :
    (fuel : Nat) → Key → St → PG → Option (PG × St)
  | 0, _, _, _ => none
  | fuel + 1, key, s, p =>
    let next := (2 ^ cfg.minLevels * p.k) % 2 ^ 32
    if desired > next ∧ threads > p.k then do
      let r ← extendOnce? cfg e lazy (fuel :: key) s p next
      extendLoop? cfg e lazy threads desired fuel key r.2 r.1
    else some (p, s)

/-- `extend_partition_lazy_extraction`, HC 212-339, and `extend_partition`, HC 341-437.  `2 << (levels - 1)` has to
fit an `int`.  Every round at least doubles the number of blocks: 33 rounds are enough. -/
def extend? (cfg : Cfg) (e : Env) (lazy : Bool) (key : Key) (threads : Nat) (s : St) (p : PG) (desired : Nat) :
    Option (PG × St) :=
  if cfg.minLevels = 0 then extendOnce? cfg e lazy (33 :: key) s p desired
  else if cfg.minLevels > 30 then none
  else do
    let r ← extendLoop? cfg e lazy threads desired 33 key s p
    extendOnce? cfg e lazy (33 :: key) r.2 r.1 desired

/-- `extend_partition` with its own memory, HC 440-467. -/
def extendLocal? (cfg : Cfg) (e : Env) (key : Key) (threads : Nat) (p : PG) (desired : Nat) : Option (PG × Bool) := do
  let r ← extend? cfg e false key threads
    ⟨resize p.g.length cfg.k p.g.m p.g.nodeWeighted p.g.edgeWeighted, true⟩ p desired
  some (r.1, r.2.ok)

/-! ## Selecting the best of several partitions -/

/-- `block_weight(b)`. -/
def blockWeight (p : PG) (b : Nat) : Int :=
  ((List.range p.g.length).map fun u => if p.part u = b then p.g.w u else 0).sum

/-- `metrics::edge_cut` (half of the weight of the edges between different blocks, counted at both ends). -/
def edgeCut (p : PG) : Int :=
  ((List.range p.g.length).map fun u =>
    ((p.g.adj u).map fun a => if p.part u = p.part a.1 then 0 else a.2).sum).sum / 2

/-- `metrics::is_feasible(p_graph, p_ctx)`. -/
def isFeasible (p : PG) (limits : List Int) : Bool :=
  (List.range p.k).all fun b => blockWeight p b ≤ limits.getD b 0

structure Best where
  index : Nat
  cut : Int
  feasible : Bool

/-- The loop of `select_best`, HH 101-114. -/
def selectLoop (limits : List Int) : List PG → (current : Nat) → Best → Best
  | [], _, b => b
  | p :: ps, i, b =>
    let f := isFeasible p limits
    let c := edgeCut p
    selectLoop limits ps (i + 1)
      (if (f = b.feasible ∧ c < b.cut) ∨ (f = true ∧ b.feasible = false) then ⟨i, c, f⟩ else b)

/-- `select_best`, HH 90-122; `maxWeight` is the largest edge weight. -/
def selectBest (maxWeight : Int) (limits : List Int) (ps : List PG) : Nat :=
  (selectLoop limits ps 0 ⟨0, maxWeight, false⟩).index

/-- `std::numeric_limits<EdgeWeight>::max()` with 64-bit edge weights. -/
def maxEdgeWeight : Int := 2 ^ 63 - 1

/-! ## Coarsening and uncoarsening one level -/

/-- The current graph of a coarsener after `coarsen()`. -/
def coarse (r : Option (LGraph × (Nat → Nat)) × Bool) (g : LGraph) : LGraph :=
  match r.1 with
  | none => g
  | some c => c.1

/-- `Coarsener::uncoarsen`: every node gets the block of its cluster (`cluster_coarsener.cc`, `noop_coarsener.h`); the
loop is modelled in `Contraction/Model.lean`. -/
def uncoarsen (r : Option (LGraph × (Nat → Nat)) × Bool) (g : LGraph) (p : PG) : PG :=
  match r.1 with
  | none => p
  | some c => ⟨g, p.k, fun u => p.part (c.2 u)⟩

/-- Refinement of a partition. -/
def refined (e : Env) (key : Key) (p : PG) (ctx : PCtx) : PG := { p with part := e.refine key p ctx }

/-! ## Asynchronous initial partitioning -/

/-- The end of `partition_recursive`, AI 61-92, and the body of the loop SI 105-136: uncoarsen, refine, extend to
`desired` blocks.  Also returns the context at the end. -/
def finishCopy? (cfg : Cfg) (e : Env) (key : Key) (r : Option (LGraph × (Nat → Nat)) × Bool) (g : LGraph)
    (q : PG × Bool) (desired threads : Nat) : Option (PG × PCtx × Bool) := do
  let p := uncoarsen r g q.1
  let ctx ← createKway? cfg.rd cfg.input (info p.g) p.k
  let p := refined e key p ctx
  if p.k < desired then
    let x ← extendLocal? cfg e key threads p desired
    let ctx ← createKway? cfg.rd cfg.input (info x.1.g) x.1.k
    some (x.1, ctx, q.2 && x.2)
  else some (p, ctx, q.2)

/-- `split_and_join`, AI 95-125, with `partition_recursive`, AI 45-93, for every copy.  The best copy is selected with
the context that was passed in: `p_ctx`, which is the context of the input graph on all levels (AI 108, 123; the
copies change their own context only).  The tasks work on their own data.  Returns the partition and whether all
memory accesses were inside. -/
def splitAndJoin? (cfg : Cfg) (e : Env) :
    (fuel : Nat) → Key → LGraph → (converged : Bool) → (threads : Nat) → Option (PG × Bool)
  | 0, _, _, _, _ => none
  | fuel + 1, key, g, converged, threads => do
    let copies ← numCopies? g.length cfg.limit converged threads
    let per := threads / copies
    let rs ← (List.range copies).mapM fun i =>
      if per = 1 then some (⟨g, 2, e.bipart (i :: key) g⟩, true)
      else do
        let r := e.coarsen (i :: key) g
        let q ← splitAndJoin? cfg e fuel (i :: key) (coarse r g) (!r.2) per
        let kn ← kForN? g.length cfg.limit cfg.k
        let x ← finishCopy? cfg e (i :: key) r g q (min cfg.k (max kn per)) per
        some (x.1, x.2.2)
    let best ← rs[selectBest maxEdgeWeight cfg.input.maxBw (rs.map Prod.fst)]?
    some (best.1, rs.all (·.2))

/-! ## Synchronous initial partitioning -/

/-- One level: the graphs before it, the number of copies made of each, and the coarsening steps of all copies. -/
structure SyncLevel where
  gs : List LGraph
  copies : Nat
  steps : List (Option (LGraph × (Nat → Nat)) × Bool)

/-- Coarsening, SI 54-87: `gs` are the current graphs of the last row of coarseners, `cur` is
`num_current_threads`.  Levels are returned coarsest first, with the coarsest graphs. -/
def syncDown? (cfg : Cfg) (e : Env) (threads : Nat) :
    (fuel : Nat) → (gs : List LGraph) → (cur : Nat) → (converged : Bool) → List SyncLevel →
      Option (List SyncLevel × List LGraph)
  | 0, _, _, _, _ => none
  | fuel + 1, gs, cur, converged, levels =>
    if gs.length < threads then do
      let g0 ← gs[0]?
      let copies ← numCopies? g0.length cfg.limit converged cur
      let parent := fun j => gs.getD (j / copies) []
      let steps := (List.range (gs.length * copies)).map fun j => e.coarsen [levels.length, j] (parent j)
      let next := (List.range (gs.length * copies)).map fun j => coarse (e.coarsen [levels.length, j] (parent j)) (parent j)
      syncDown? cfg e threads fuel next (cur / copies) (steps.all (!·.2)) (⟨gs, copies, steps⟩ :: levels)
    else some (levels, gs)

/-- Uncoarsening and joining one level, SI 98-163. -/
def syncJoin? (cfg : Cfg) (e : Env) (threads level : Nat) (l : SyncLevel) (ps : List (PG × Bool)) :
    Option (List (PG × Bool)) := do
  let xs ← (List.range ps.length).mapM fun i => do
    let g := l.gs.getD (i / l.copies) []
    let r := l.steps.getD i (none, false)
    let q ← ps[i]?
    let p := uncoarsen r g q.1
    let kn ← kForN? p.g.length cfg.limit cfg.k
    finishCopy? cfg e [level, i] r g q kn threads
  (List.range (ps.length / l.copies)).mapM fun i => do
    let group := (xs.drop (i * l.copies)).take l.copies
    let first ← group[0]?
    let best ← group[selectBest maxEdgeWeight first.2.1.maxBw (group.map (·.1))]?
    some (best.1, xs.all (·.2.2))

/-- SI 98-163. -/
def syncUp? (cfg : Cfg) (e : Env) (threads : Nat) : List SyncLevel → List (PG × Bool) → Option (List (PG × Bool))
  | [], ps => some ps
  | l :: levels, ps => do
    let ps ← syncJoin? cfg e threads levels.length l ps
    syncUp? cfg e threads levels ps

/-- `SyncInitialPartitioner::partition`, SI 39-168. -/
def syncPartition? (cfg : Cfg) (e : Env) (fuel : Nat) (g : LGraph) (threads : Nat) : Option (PG × Bool) := do
  let d ← syncDown? cfg e threads fuel [g] threads false []
  let ps ← (List.range threads).mapM fun i => do
    let c ← d.2[i]?
    some ((⟨c, 2, e.bipart [i] c⟩ : PG), true)
  let r ← syncUp? cfg e threads d.1 ps
  r[0]?

/-! ## Deep multilevel partitioning -/

/-- State of the coarsening loop, DM 73-79, with the numbers that are kept for the memory of the subgraphs. -/
structure Coarsening where
  cur : LGraph
  /-- the levels of the coarsener: finer graph and clusters, last level first -/
  stack : List (LGraph × (Nat → Nat))
  prevN : Nat
  prevM : Nat
  shrunk : Bool
  search : Bool
  /-- `_last_initial_partitioning_level`; `none` is `level() - 1` for level 0 -/
  last : Option Nat
  n : Nat
  m : Nat
  nw : Nat
  mw : Nat

/-- The levels after `coarsen()`: the coarse graph and its mapping are pushed on the hierarchy
(cluster_coarsener.cc 28-101), or nothing happens (noop_coarsener.h). -/
def pushed (r : Option (LGraph × (Nat → Nat)) × Bool) (g : LGraph) (stack : List (LGraph × (Nat → Nat))) :
    List (LGraph × (Nat → Nat)) :=
  match r.1 with
  | none => stack
  | some x => (g, x.2) :: stack

/-- `initial_partitioning_threshold`, DM 160-173 (32 bits). -/
def Cfg.threshold (cfg : Cfg) : Nat :=
  match cfg.mode with
  | .sequential => 2 * cfg.limit % 2 ^ 32
  | _ => cfg.threads * cfg.limit % 2 ^ 32

/-- One iteration of the coarsening loop, DM 81-139. -/
def coarsenStep? (cfg : Cfg) (e : Env) (c : Coarsening) : Option Coarsening := do
  let r := e.coarsen [c.stack.length] c.cur
  let cur := coarse r c.cur
  let stack := pushed r c.cur c.stack
  let c' := { c with cur := cur, stack := stack, prevN := c.cur.length, prevM := c.cur.m, shrunk := r.2 }
  if c.search then
    let kn ← kForN? cur.length cfg.limit cfg.k
    if kn < cfg.k then
      let toplevel := stack.length = 1
      some { c' with
        search := false
        last := if stack.length = 0 then none else some (stack.length - 1)
        n := c.cur.length
        m := c.cur.m
        nw := if toplevel ∧ c.cur.nodeWeighted = false then cur.length else c.cur.length
        mw := if toplevel ∧ c.cur.edgeWeighted = false then cur.m else c.cur.m }
    else some c'
  else some c'

/-- The coarsening loop, DM 81-139. -/
def coarsenLoop? (cfg : Cfg) (e : Env) : (fuel : Nat) → Coarsening → Option Coarsening
  | 0, _ => none
  | fuel + 1, c =>
    if c.shrunk = true ∧ c.cur.length > cfg.threshold then do
      let c ← coarsenStep? cfg e c
      coarsenLoop? cfg e fuel c
    else some c

/-- `coarsen`, DM 69-158. -/
def coarsen? (cfg : Cfg) (e : Env) (fuel : Nat) (g : LGraph) : Option Coarsening := do
  let c ← coarsenLoop? cfg e fuel ⟨g, [], g.length, g.m, true, true, some 0, 0, 0, 0, 0⟩
  some (if c.search then { c with n := c.prevN, nw := c.prevN, m := c.prevM, mw := c.prevM } else c)

/-- The partition of the coarsest graph, DM 204-222.  The memory flag is that of the local memories. -/
def initialPartition? (cfg : Cfg) (e : Env) (fuel : Nat) (g : LGraph) : Option (PG × Bool) :=
  match cfg.mode with
  | .sequential => some (⟨g, 2, e.bipart [] g⟩, true)
  | .sync => do
    let threads ← cfg.ipThreads?
    syncPartition? cfg e fuel g threads
  | .async => do
    let threads ← cfg.ipThreads?
    splitAndJoin? cfg e fuel [] g false threads

/-- `extend_partition`, DM 351-417; `level` is `_coarsener->level()`.  The memory is freed after the last extension,
DM 400-406.  Also returns the new context. -/
def deepExtend? (cfg : Cfg) (e : Env) (last : Option Nat) (level : Nat) (key : Key) (s : St) (p : PG) (desired : Nat) :
    Option (PG × PCtx × St) := do
  let r ← extend? cfg e cfg.lazy key cfg.threads s p desired
  let s := if last = some level then { r.2 with size := ⟨0, 0, 0, 0⟩ } else r.2
  let ctx ← createKway? cfg.rd cfg.input (info r.1.g) r.1.k
  some (r.1, ctx, s)

/-- The loop of `uncoarsen`, DM 268-293. -/
def uncoarsenLoop? (cfg : Cfg) (e : Env) (last : Option Nat) :
    List (LGraph × (Nat → Nat)) → St → PG → (refined : Bool) → Option (PG × St × Bool)
  | [], s, p, ref => some (p, s, ref)
  | x :: rest, s, p, _ => do
    let p : PG := ⟨x.1, p.k, fun u => p.part (x.2 u)⟩
    let ctx ← createKway? cfg.rd cfg.input (info p.g) p.k
    let p := refined e [rest.length, 0] p ctx
    let desired ← kForN? p.g.length cfg.limit cfg.k
    if p.k < desired then
      let r ← deepExtend? cfg e last rest.length [rest.length] s p desired
      if cfg.refineAfter then uncoarsenLoop? cfg e last rest r.2.2 (refined e [rest.length, 1] r.1 r.2.1) true
      else uncoarsenLoop? cfg e last rest r.2.2 r.1 false
    else uncoarsenLoop? cfg e last rest s p true

/-- The end of `uncoarsen`, DM 295-313. -/
def toplevel? (cfg : Cfg) (e : Env) (last : Option Nat) (s : St) (p : PG) (ref : Bool) : Option (PG × St) := do
  let ctx ← createKway? cfg.rd cfg.input (info p.g) p.k
  if ref = false ∨ p.k < cfg.k then
    let p := if ref = false then refined e [0, 2] p ctx else p
    if p.k < cfg.k then
      let r ← deepExtend? cfg e last 0 [0, 3] s p cfg.k
      some (refined e [0, 4] r.1 r.2.1, r.2.2)
    else some (p, s)
  else some (p, s)

/-- `DeepMultilevelPartitioner::partition`, DM 55-67: the partition, and whether all memory accesses of the extensions
were inside. -/
def deep? (cfg : Cfg) (e : Env) (fuel : Nat) (g : LGraph) : Option (PG × Bool) := do
  let c ← coarsen? cfg e fuel g
  let size := if cfg.lazy then ⟨0, 0, 0, 0⟩ else weightedResize c.n cfg.k c.m c.nw c.mw
  let p ← initialPartition? cfg e fuel c.cur
  let _ ← createKway? cfg.rd cfg.input (info p.1.g) p.1.k
  let r ← uncoarsenLoop? cfg e c.last c.stack ⟨size, p.2⟩ p.1 false
  let r ← toplevel? cfg e c.last r.2.1 r.1 r.2.2
  some (r.1, r.2.ok)

/-! ## Direct k-way partitioning -/

/-- The coarsening loops KM 86-110 and RB 95-98. -/
def plainCoarsen? (e : Env) (key : Key) (threshold : Nat) :
    (fuel : Nat) → LGraph → List (LGraph × (Nat → Nat)) → Option (LGraph × List (LGraph × (Nat → Nat)))
  | 0, _, _ => none
  | fuel + 1, g, stack =>
    if g.length > threshold then
      let r := e.coarsen (stack.length :: key) g
      let stack := pushed r g stack
      if r.2 then plainCoarsen? e key threshold fuel (coarse r g) stack else some (coarse r g, stack)
    else some (g, stack)

/-- The loop of `uncoarsen`, KM 69-75. -/
def kwayUncoarsen (cfg : Cfg) (e : Env) : List (LGraph × (Nat → Nat)) → PG → PG
  | [], p => p
  | x :: rest, p =>
    let p : PG := ⟨x.1, p.k, fun u => p.part (x.2 u)⟩
    kwayUncoarsen cfg e rest (refined e [rest.length] p cfg.input)

/-- `KWayMultilevelPartitioner::partition`, KM 40-43. -/
def kway? (cfg : Cfg) (e : Env) (fuel : Nat) (g : LGraph) : Option (PG × Bool) := do
  let c ← plainCoarsen? e [] (cfg.k * cfg.limit % 2 ^ 32) fuel g []
  let p : PG := ⟨c.1, 2, e.bipart [] c.1⟩
  let r ← extend? cfg e false [] cfg.threads ⟨resize p.g.length cfg.k p.g.m true true, true⟩ p cfg.k
  some (kwayUncoarsen cfg e c.2 (refined e [c.2.length] r.1 cfg.input), r.2.ok)

/-! ## Recursive bipartitioning -/

/-- RB 107-114. -/
def rbUncoarsen (e : Env) (key : Key) (ctx : Option PCtx) : List (LGraph × (Nat → Nat)) → PG → PG
  | [], p => { p with part := e.refine2 (0 :: key) p ctx }
  | x :: rest, p =>
    let p : PG := { p with part := e.refine2 ((rest.length + 1) :: key) p ctx }
    rbUncoarsen e key ctx rest ⟨x.1, p.k, fun u => p.part (x.2 u)⟩

/-- `bipartition`, RB 82-117. -/
def rbBipartition? (cfg : Cfg) (e : Env) (fuel : Nat) (key : Key) (g : LGraph) (block currentK : Nat) : Option PG := do
  let ctx := createTwoway? cfg.rd cfg.pow cfg.input cfg.adaptive block currentK (info g)
  let c ← plainCoarsen? e key (2 * cfg.limit % 2 ^ 32) fuel g []
  some (rbUncoarsen e key ctx c.2 ⟨c.1, 2, fun u => e.bip key c.1 block currentK u⟩)

/-- `partition_recursive`, RB 49-80: the partition and the memory flag; the first `fuel` bounds the coarsening loops,
the second one the depth. -/
def rbRec? (cfg : Cfg) (e : Env) (fuel : Nat) :
    (depth : Nat) → Key → LGraph → (block currentK : Nat) → Option (PG × Bool)
  | 0, _, _, _, _ => none
  | depth + 1, key, g, block, currentK => do
    let p ← rbBipartition? cfg e fuel key g block currentK
    if currentK * 2 % 2 ^ 32 < cfg.k then
      let pads ← (List.range 2).mapM fun b => finalKRoot? b 2 p.k
      let pad := fun b => pads.getD b 0
      let mem : Mem := ⟨e.cells key, resize g.length p.k g.m g.nodeWeighted g.edgeWeighted, true⟩
      let r := extractAll g p.part pad 2 (e.sched key p) mem (e.slot0 key)
      let p1 ← rbRec? cfg e fuel depth (0 :: key) ((r.views 0).graph r.mem.cell) (2 * block) (currentK * 2 % 2 ^ 32)
      let p2 ← rbRec? cfg e fuel depth (1 :: key) ((r.views 1).graph r.mem.cell) (2 * block + 1) (currentK * 2 % 2 ^ 32)
      let k := p1.1.k + p2.1.k
      let fin ← (List.range 2).mapM fun b => finalKRoot? b 2 cfg.k
      let labels := fun (q : PG) => (List.range q.g.length).map q.part
      let part := copyPartitions (blockOffsets 2 k cfg.k fun b => fin.getD b 0)
        (fun b => if b = 0 then labels p1.1 else labels p2.1) r.mapping (e.order key g.length) p.part
      some (⟨g, k, part⟩, r.mem.ok && p1.2 && p2.2)
    else some (p, true)

/-- `RBMultilevelPartitioner`, RB 25-47: the outer option is the exception for a number of blocks that is not a power
of two. -/
def rb? (cfg : Cfg) (e : Env) (fuel depth : Nat) (g : LGraph) : Option (Option (PG × Bool)) :=
  if cfg.k ≠ 0 ∧ cfg.k &&& (cfg.k - 1) = 0 then
    some ((rbRec? cfg e fuel depth [] g 0 1).map fun r =>
      (if cfg.rbToplevel then refined e [] r.1 cfg.input else r.1, r.2))
  else none

end Verif.Multilevel
