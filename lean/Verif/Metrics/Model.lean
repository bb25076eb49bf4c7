import Verif.Graph.Basic
import Verif.Blocks.Model
import Mathlib.Data.Rat.Floor

/-!
# Model of the partition metrics and of the block weight limits

Sources: `kaminpar-shm/metrics.h` (ME), `kaminpar-shm/kaminpar.cc` (KC) and `kaminpar-shm/kaminpar.h` (KH).
Integers do not overflow.  Floating point is modelled by rational arithmetic followed by a rounding
function `rd`, see `Rounding`.
-/

namespace Verif.Metrics

/-- The cut edges of one node, ME 30-32 and 51-53. -/
def addNode (g : Graph) (part : Nat → Nat) (cut : Int) (u : Nat) : Int :=
  (g.adj u).foldl (fun cut e => cut + if part u ≠ part e.1 then e.2 else 0) cut

/-- ME 38-39 and 56-57: the assertion and the division by two. -/
def halve (cut : Int) : Option Int := if cut % 2 = 0 then some (cut / 2) else none

/-- `edge_cut_seq`, ME 46-58. -/
def edgeCutSeq (g : Graph) (part : Nat → Nat) : Option Int :=
  halve ((List.range g.n).foldl (addNode g part) 0)

/-- `edge_cut`, ME 23-40.  `chunks` are the ranges of the parallel loop in the order in which they are
executed, each with the thread that executes it; threads do not share data. -/
def edgeCutPar (g : Graph) (part : Nat → Nat) (T : Nat) (chunks : List (Nat × List Nat)) : Option Int :=
  let ets : Nat → Int := chunks.foldl (fun ets c => upd ets c.1 (c.2.foldl (addNode g part) (ets c.1)))
    fun _ => 0
  halve ((List.range T).foldl (fun sum t => sum + ets t) 0)

/-- `total_overload`, ME 75-84. -/
def totalOverload (k : Nat) (bw maxBw : Nat → Int) : Int :=
  (List.range k).foldl (fun s b => s + max 0 (bw b - maxBw b)) 0

/-- `is_balanced` and `is_feasible` with a context, ME 86-91 and 103-106. -/
def isBalanced (k : Nat) (bw maxBw : Nat → Int) : Bool :=
  (List.range k).all fun b => bw b ≤ maxBw b

/-- Properties of rounding to double precision that are used: it is monotone, and exact for numbers
`m / 2^j` with `|m| ≤ 2^53` (and `j ≤ 1000`, so that the numbers are normal). -/
structure Rounding (rd : ℚ → ℚ) : Prop where
  mono : ∀ x y, x ≤ y → rd x ≤ rd y
  exact : ∀ (m : Int) (j : Nat), |m| ≤ 2 ^ 53 → j ≤ 1000 → rd (m / 2 ^ j) = m / 2 ^ j

/-- The block weight limits of a `PartitionContext`, KH 352-445. -/
structure Ctx where
  total : Int
  maxNode : Int
  k : Nat
  maxBw : Nat → Int
  unrelaxed : Nat → Int
  epsilon : ℚ
  uniform : Bool

/-- `ceil(1.0 * total / k)`, KC 39-40, KH 402-403. -/
def perfect (rd : ℚ → ℚ) (total : Int) (k : Nat) : Int := ⌈rd (rd total / rd k)⌉

/-- `infer_epsilon(total_node_weight)` where `original_total_node_weight = total_node_weight`, KH 400-411;
the second return value uses the sum of the limits. -/
def inferredEps (rd : ℚ → ℚ) (total : Int) (k : Nat) (epsilon : ℚ) (uniform : Bool) (sumMax : Int) : ℚ :=
  if uniform then
    let mx := rd (rd (1 + epsilon) * perfect rd total k)
    rd (rd (mx / perfect rd total k) - 1)
  else rd (rd (rd sumMax / rd total) - 1)

/-- `setup` with explicit limits, KC 47-76; `_epsilon` is left as it is. -/
def Ctx.setupVector (rd : ℚ → ℚ) (old : Ctx) (total maxNode : Int) (k : Nat) (maxBw : Nat → Int)
    (relax : Bool) : Ctx :=
  let sumMax := (List.range k).foldl (fun s b => s + maxBw b) 0
  let eps := inferredEps rd total k old.epsilon false sumMax
  { total, maxNode, k, epsilon := old.epsilon, uniform := false, unrelaxed := maxBw
    maxBw := if relax then
        fun b => max (maxBw b) (⌈rd (rd (maxBw b) / rd (1 + eps))⌉ + maxNode)
      else maxBw }

/-- `setup` with an imbalance, KC 30-45; the conversion to `BlockWeight` truncates. -/
def Ctx.setupEps (rd : ℚ → ℚ) (old : Ctx) (total maxNode : Int) (k : Nat) (epsilon : ℚ) (relax : Bool) : Ctx :=
  let mx := ⌊rd (rd (1 + epsilon) * perfect rd total k)⌋
  { Ctx.setupVector rd { old with epsilon := epsilon } total maxNode k (fun _ => mx) relax with
    uniform := true }

end Verif.Metrics
