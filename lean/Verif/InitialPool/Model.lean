import Verif.FlatBip.Model
import Verif.InitialCoarsening.Model

/-!
# Model of the pool of bipartitioners and of the multilevel bipartitioner

Sources in `kaminpar-shm/initial_partitioning`: `initial_pool_bipartitioner.cc` (PB), `initial_pool_bipartitioner.h` (PBH), `initial_multilevel_bipartitioner.cc` (MB),
`initial_refiner.cc` (IR), `initial_noop_refiner.cc`, and `kaminpar-shm/metrics.h` (ME).

Integers do not overflow; floating point numbers are rational numbers followed by a rounding function `rd`.  The means and variances
of the cuts (PB 30-52) are not modelled: whether a bipartitioner is likely to improve is decided by an oracle, except that a
bipartitioner with fewer than two feasible bipartitions has variance 0 and is never likely to improve.
-/

namespace Verif.InitialPool
open Verif.InitialFM (Cfg)
open Verif.FlatBip (Bip Kind Select)
open Verif.InitialCoarsening (Coarsener project projectedWeights)

/-! ## The pool -/

/-- The bipartitioners registered by the constructor, PB 63-76. -/
def register (bfs ggg random : Bool) : List Kind :=
  (if bfs then [.bfs .alternating, .bfs .lighter, .bfs .longerQueue, .bfs .shorterQueue, .bfs .sequential] else []) ++
  (if ggg then [.ggg] else []) ++ if random then [.random] else []

/-- `InitialPoolPartitionerContext`: the registered bipartitioners, `min_num_repetitions`, `max_num_repetitions`,
`min_num_non_adaptive_repetitions`, `use_adaptive_bipartitioner_selection`, and of `refinement` the opposite of `disabled` and
`num_iterations`. -/
structure PoolCfg where
  kinds : List Kind
  minRep : Int
  maxRep : Int
  minNonAdaptive : Int
  adaptive : Bool
  refine : Bool
  iterations : Nat

/-- The random choices of one run, and whether the statistics say that the run is likely to improve the bipartition. -/
structure RunOracle where
  flat : FlatBip.Oracle
  fm : Nat → InitialFM.Oracle
  likely : Bool

/-- `_current_partition`, `_best_partition` and so on, PBH 93-107, and the number of feasible bipartitions of each bipartitioner.
`runs` is not in the code: all bipartitions so far, newest first, each with its bipartitioner. -/
structure Pool where
  cur : Bip
  best : Bip
  bestCut : Int
  bestImb : ℚ
  bestFeas : Bool
  winner : Nat
  feasible : Nat → Nat
  runs : List (Nat × Bip)

/-- `reset`, PB 102-112, called by `init`.  The arrays keep what an earlier use left in them. -/
def Pool.init (maxKey : Int) (cur best : Bip) (winner : Nat) : Pool where
  cur := cur
  best := best
  bestCut := maxKey
  bestImb := 0
  bestFeas := false
  winner := winner
  feasible := fun _ => 0
  runs := []

/-- A refiner as created by IR 15-29: the 2-way FM algorithm, or nothing if refinement is disabled.  The stopping rules are oracles of
the model of the FM algorithm, so that it does not matter which of them is used. -/
def refineWith? (c : Cfg) (enabled : Bool) (o : Nat → InitialFM.Oracle) (s : Bip) : Option Bip :=
  if enabled then (InitialFM.refine? c o s.part s.bw).map fun r => ⟨r.1, r.2.1⟩ else some s

/-- `imbalance`, ME 64-73, for two blocks.  If all weights are 0, the code divides 0 by 0 and `std::max` ignores the result, as does the
model, where the quotient is 0. -/
def imbalance (rd : ℚ → ℚ) (total : Int) (bw : Nat → Int) : ℚ :=
  let perfect : ℚ := ⌈rd (total / 2)⌉
  (List.range 2).foldl (fun m b => max m (rd (rd (bw b / perfect) - 1))) 0

/-- Whether a bipartition is better than the best one, PB 220-222. -/
def Pool.accepts (p : Pool) (cut : Int) (imb : ℚ) (feas : Bool) : Bool :=
  p.bestFeas ≤ feas && (p.bestFeas < feas || cut < p.bestCut || (cut = p.bestCut && imb < p.bestImb))

/-- `run_bipartitioner`, PB 197-233. -/
def run? (c : Cfg) (pc : PoolCfg) (rd : ℚ → ℚ) (cap inf : Nat) (i : Nat) (kind : Kind) (o : RunOracle) (p : Pool) : Option Pool := do
  let s ← FlatBip.bipartition? c cap inf kind o.flat p.cur
  let s ← refineWith? { c with iterations := pc.iterations } pc.refine o.fm s
  let cut ← Metrics.edgeCutSeq c.g s.part
  let imb := imbalance rd (FlatBip.totalWeight c.g) s.bw
  let feas := Metrics.isBalanced 2 s.bw c.maxW
  let feasible := if feas then upd p.feasible i (p.feasible i + 1) else p.feasible
  if p.accepts cut imb feas then
    some ⟨p.best, s, cut, imb, feas, i, feasible, (i, s) :: p.runs⟩
  else some { p with cur := s, feasible := feasible, runs := (i, s) :: p.runs }

/-- Whether bipartitioner `i` is run in a repetition, PB 126-127 and `likely_to_improve`, PB 152-156. -/
def Pool.runs? (p : Pool) (pc : PoolCfg) (repetition i : Nat) (likely : Bool) : Bool :=
  (repetition : Int) < pc.minNonAdaptive || !pc.adaptive || (decide (2 ≤ p.feasible i) && likely)

/-- One repetition, PB 125-130. -/
def repetition? (c : Cfg) (pc : PoolCfg) (rd : ℚ → ℚ) (cap inf : Nat) (o : Nat → Nat → RunOracle) (p : Pool) (r : Nat) : Option Pool :=
  pc.kinds.zipIdx.foldlM (fun p x => if p.runs? pc r x.2 (o r x.2).likely then run? c pc rd cap inf x.2 x.1 (o r x.2) p else some p) p

/-- `std::clamp` as used in PB 121-122; the limits must be ordered. -/
def PoolCfg.repetitions (pc : PoolCfg) (num : Int) : Nat := (max pc.minRep (min pc.maxRep num)).toNat

/-- `bipartition`, PB 114-150. -/
def pool? (c : Cfg) (pc : PoolCfg) (rd : ℚ → ℚ) (cap inf : Nat) (num : Int) (o : Nat → Nat → RunOracle) (p : Pool) : Option Pool :=
  (List.range (pc.repetitions num)).foldlM (repetition? c pc rd cap inf o) p

/-! ## The multilevel bipartitioner -/

/-- The configuration: the width of the packed weights of the coarsener, whether coarsening has converged for given numbers of coarse and
fine nodes, the contraction limit, the maximum cluster weight, the pool, the number of repetitions, whether the bipartition of the pool
is refined, and whether and how often the refiner refines. -/
structure MlCfg where
  bits : Nat
  conv : Nat → Nat → Bool
  limit : Nat
  maxCluster : Int
  pool : PoolCfg
  repetitions : Int
  refinePool : Bool
  refine : Bool

/-- The random choices.  Those that depend on the size of the graph have it as their first argument. -/
structure MlOracle where
  coarse : Nat → InitialCoarsening.Oracle
  pool : Nat → Nat → Nat → RunOracle
  poolFm : Nat → Nat → InitialFM.Oracle
  fm : Nat → Nat → Nat → InitialFM.Oracle

/-- `InitialCoarsener::coarsen`, IC 51-74, with the test for convergence: the oracle `converged` of the model of the coarsener is
determined by the number of moved nodes. -/
def coarsen? (mc : MlCfg) (o : InitialCoarsening.Oracle) (c : Coarsener) : Option Coarsener := do
  let st ← c.cluster? mc.bits mc.maxCluster o
  c.coarsen? mc.bits mc.maxCluster { o with converged := mc.conv (c.current.n - st.cl.moves) c.current.n }

/-- The loop of `coarsen`, MB 126-147, in the `t`-th iteration; `none` if it does not end within the given number of iterations. -/
def coarsenLoop? (mc : MlCfg) (o : Nat → InitialCoarsening.Oracle) : Nat → Nat → Coarsener → Option Coarsener
  | fuel, t, c =>
    if mc.limit < c.current.n then
      match fuel with
      | 0 => none
      | fuel + 1 => do
        let c' ← coarsen? mc (o t) c
        if c'.levels.length ≠ c.levels.length then coarsenLoop? mc o fuel (t + 1) c' else some c'
    else some c

/-- `uncoarsen`, MB 156-174: project to the next finer graph, and refine. -/
def uncoarsen? (c : Cfg) (mc : MlCfg) (o : Nat → Nat → Nat → InitialFM.Oracle) : List (Graph × (Nat → Nat)) → Bip → Option Bip
  | [], s => some s
  | (_, mapping) :: levels, s => do
    let g := match levels with
      | [] => c.g
      | (g, _) :: _ => g
    let part := project mapping s.part
    let s ← refineWith? { c with g := g } mc.refine (o g.n levels.length) ⟨part, projectedWeights g part⟩
    uncoarsen? c mc o levels s

/-- What `partition` returns, and, for the specification, the hierarchy and the final state of the pool. -/
structure Result where
  bip : Bip
  levels : List (Graph × (Nat → Nat))
  pool : Pool

/-- `partition`, MB 78-110, for the input graph `c.g`.  The coarsener has been initialised (MB 61), and `cur`, `best` and `winner` are what an
earlier use left in the pool. -/
def partition? (c : Cfg) (mc : MlCfg) (rd : ℚ → ℚ) (cap inf : Nat) (o : MlOracle) (co : Coarsener) (cur best : Bip) (winner : Nat) :
    Option Result := do
  let co ← coarsenLoop? mc o.coarse c.g.n 0 co
  let g := co.current
  let p ← pool? { c with g := g } mc.pool rd cap inf mc.repetitions (o.pool g.n) (.init c.maxKey cur best winner)
  let s ← (if mc.refinePool then refineWith? { c with g := g } mc.refine (o.poolFm g.n) p.best else some p.best)
  let s ← uncoarsen? c mc o.fm co.levels s
  some ⟨s, co.levels, p⟩

end Verif.InitialPool
