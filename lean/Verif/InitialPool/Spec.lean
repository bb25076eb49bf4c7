import Verif.InitialPool.Model
import Verif.InitialFM.Spec
import Verif.FlatBip.Spec
import Verif.InitialCoarsening.Spec

/-!
# Specification for the pool and the multilevel bipartitioner
-/

namespace Verif.InitialPool
open Verif.InitialFM (blockW)

/-- Both blocks are within their limits. -/
def Feasible (g : Graph) (maxW : Nat → Int) (part : Nat → Nat) : Prop :=
  blockW g part 0 ≤ maxW 0 ∧ blockW g part 1 ≤ maxW 1

/-- Bipartition `a` is at least as good as `b`: feasibility comes first, then the cut, then the imbalance. -/
structure AsGood (g : Graph) (maxW : Nat → Int) (rd : ℚ → ℚ) (a b : Nat → Nat) : Prop where
  feasible : Feasible g maxW b → Feasible g maxW a
  cut : (Feasible g maxW a ↔ Feasible g maxW b) → g.cut a ≤ g.cut b
  imbalance : (Feasible g maxW a ↔ Feasible g maxW b) → g.cut a = g.cut b →
    imbalance rd (FlatBip.total g) (blockW g a) ≤ imbalance rd (FlatBip.total g) (blockW g b)

/-- What the random number generators guarantee on a graph with `n` nodes. -/
structure RunOracle.Ok (n : Nat) (o : RunOracle) : Prop where
  flat : o.flat.Ok n
  fm : ∀ i, (o.fm i).Ok n

/-- The same for the multilevel bipartitioner. -/
structure MlOracle.Ok (buckets : Nat) (start : Nat → Nat) (o : MlOracle) : Prop where
  coarse : ∀ t, (o.coarse t).Ok buckets start
  pool : ∀ n, 0 < n → ∀ r i, (o.pool n r i).Ok n
  poolFm : ∀ n i, (o.poolFm n i).Ok n
  fm : ∀ n l i, (o.fm n l i).Ok n

/-- The bipartition `s` was computed by bipartitioner `i` and then refined. -/
def Produced (c : InitialFM.Cfg) (pc : PoolCfg) (cap inf i : Nat) (s : FlatBip.Bip) : Prop :=
  ∃ (kind : FlatBip.Kind) (o : RunOracle) (old s0 : FlatBip.Bip), pc.kinds[i]? = some kind ∧ o.Ok c.g.n ∧ FlatBip.bipartition? c cap inf kind o.flat old = some s0 ∧
    refineWith? { c with iterations := pc.iterations } pc.refine o.fm s0 = some s

/-- The number of runs of bipartitioner `i`. -/
def runsOf (i : Nat) (runs : List (Nat × FlatBip.Bip)) : Nat := runs.countP fun x => x.1 = i

end Verif.InitialPool
