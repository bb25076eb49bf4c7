import Verif.Metrics.Model
import Verif.Subgraph.Model

/-!
# Model of the balance constraints of intermediate partitions

Sources: `kaminpar-shm/partitioning/helper.cc` (HC), `kaminpar-shm/kaminpar.h` (KH) and `kaminpar-shm/kaminpar.cc`
(KC).  Integers do not overflow.  Floating point is modelled by rational arithmetic followed by a rounding function
`rd`.  `none` models a result that is not a number (a division by zero, and then a conversion to an integer, which is
undefined), a read beyond the end of a vector, and undefined behaviour in the block arithmetic.
-/

namespace Verif.Limits
open Verif.Math Verif.Blocks Verif.Subgraph

/-- What the set-up of a context reads of a graph: number of nodes, total and maximum node weight. -/
structure GInfo where
  n : Nat
  total : Int
  maxNode : Int

/-- `PartitionContext`, KH 352-445, without the numbers of edges. -/
structure PCtx where
  n : Nat
  originalTotal : Int
  total : Int
  maxNode : Int
  k : Nat
  maxBw : List Int
  unrelaxed : List Int
  totalMax : Int
  epsilon : ℚ
  uniform : Bool

/-- A division of doubles; a zero denominator gives no (finite) number. -/
def div? (rd : ℚ → ℚ) (a b : ℚ) : Option ℚ := if b = 0 then none else some (rd (a / b))

/-- `infer_epsilon`, KH 400-407. -/
def PCtx.inferEps? (rd : ℚ → ℚ) (c : PCtx) (actual : Int) : Option ℚ :=
  if c.uniform then do
    let p ← div? rd (rd c.originalTotal) (rd c.k)
    let mx := rd (rd (1 + c.epsilon) * ⌈p⌉)
    let q ← div? rd (rd actual) (rd c.k)
    let r ← div? rd mx ⌈q⌉
    some (rd (r - 1))
  else do
    let r ← div? rd (rd c.totalMax) (rd actual)
    some (rd (r - 1))

/-- `inferred_epsilon`, KH 409-411. -/
def PCtx.inferredEps? (rd : ℚ → ℚ) (c : PCtx) : Option ℚ := c.inferEps? rd c.total

/-- `std::accumulate` over `[b, e)`. -/
def slice? (l : List Int) (b e : Nat) : Option Int :=
  if b ≤ e ∧ e ≤ l.length then some ((l.drop b).take (e - b)).sum else none

/-- `total_max_block_weights`, KH 370-380. -/
def PCtx.totalMax? (c : PCtx) (b e : Nat) : Option Int :=
  if c.uniform then do
    let x ← c.maxBw[b]?
    some (x * ((e - b : Nat) : Int))
  else slice? c.maxBw b e

/-- `total_unrelaxed_max_block_weights`, KH 383-394; the conversion of the result truncates. -/
def PCtx.totalUnrelaxed? (rd : ℚ → ℚ) (c : PCtx) (b e : Nat) : Option Int :=
  if c.uniform then do
    let eps ← c.inferredEps? rd
    let q ← div? rd (rd (((e - b : Nat) : ℚ) * c.total)) (rd c.k)
    some ⌊rd (rd (1 + eps) * ⌈q⌉)⌋
  else slice? c.unrelaxed b e

/-- `setup` with explicit limits, KC 47-76.  The field `_epsilon` is left as it is; relaxing raises each limit to
its share of the total weight plus the weight of the heaviest node, KC 68-75. -/
def PCtx.setup? (rd : ℚ → ℚ) (epsilon : ℚ) (g : GInfo) (limits : List Int) (relax : Bool) : Option PCtx := do
  let c : PCtx :=
    { n := g.n, originalTotal := g.total, total := g.total, maxNode := g.maxNode, k := limits.length
      maxBw := limits, unrelaxed := limits, totalMax := limits.sum, epsilon := epsilon, uniform := false }
  if relax then
    let eps ← c.inferredEps? rd
    let relaxed ← limits.mapM fun (x : Int) => do
      let q ← div? rd (rd x) (rd (1 + eps))
      some (max x (⌈q⌉ + g.maxNode))
    some { c with maxBw := relaxed }
  else some c

/-- `setup` with an imbalance, KC 30-45, without relaxing. -/
def PCtx.setupEps? (rd : ℚ → ℚ) (epsilon : ℚ) (g : GInfo) (k : Nat) : Option PCtx := do
  let p ← div? rd (rd g.total) (rd k)
  let c ← PCtx.setup? rd epsilon g (List.replicate k ⌊rd (rd (1 + epsilon) * ⌈p⌉)⌋) false
  some { c with uniform := true }

/-- `compute_partition` stores the number and the weight of the nodes that remain after removing isolated nodes,
KC 360-361. -/
def PCtx.remaining (c : PCtx) (n : Nat) (total : Int) : PCtx := { c with n := n, total := total }

/-- The loop HC 31-40: `cur` is `cur_fine_block`, the first argument the blocks that remain. -/
def kwayLoop? (rd : ℚ → ℚ) (input : PCtx) (currentK : Nat) : List Nat → (cur : Nat) → Option (List Int)
  | [], _ => some []
  | b :: bs, cur => do
    let num ← finalK? b currentK input.k
    let x ← input.totalUnrelaxed? rd cur (cur + num)
    let xs ← kwayLoop? rd input currentK bs (cur + num)
    some (x :: xs)

/-- `create_kway_context`, HC 26-54, for a graph `g` partitioned into `currentK` blocks. -/
def createKway? (rd : ℚ → ℚ) (input : PCtx) (g : GInfo) (currentK : Nat) : Option PCtx := do
  let limits ← kwayLoop? rd input currentK (List.range currentK) 0
  let c ← PCtx.setup? rd (-1) g limits (g.n ≠ input.n)
  some { c with epsilon := if 0 < input.epsilon then input.epsilon else c.epsilon }

/-- The limits of the two sides from the limits of the final blocks, HC 62-85. -/
def twowayLimits? (input : PCtx) (block currentK : Nat) : Option (Int × Int) := do
  let first ← firstSubBlock? block currentK input.k
  let num ← finalKRoot? block currentK input.k
  let invalid := first + num
  let b0 := (splitIntegral num).1
  let l0 ← input.totalMax? first (first + b0)
  let l1 ← input.totalMax? (first + b0) invalid
  some (l0, l1)

/-- The adapted limits, HC 101-115.  `pow` is `std::pow`, of which nothing is assumed. -/
def adapt? (rd : ℚ → ℚ) (pow : ℚ → ℚ → ℚ) (input : PCtx) (g : GInfo) (num : Nat) (l : Int × Int) :
    Option (Int × Int) := do
  let ie ← input.inferredEps? rd
  let b1 ← div? rd (rd (rd (rd (1 + ie) * num) * input.total)) (rd input.k)
  let base ← div? rd b1 (rd g.total)
  let lg ← ceilLog2? 32 num
  let exponent ← div? rd 1 lg
  let adapted := max (rd (pow base exponent - 1)) (rd (1 / 10000))
  let r0 ← div? rd (rd l.1) (rd ((l.1 + l.2 : Int) : ℚ))
  let r1 ← div? rd (rd l.2) (rd ((l.1 + l.2 : Int) : ℚ))
  some (⌊rd (rd (rd (1 + adapted) * g.total) * r0)⌋, ⌊rd (rd (rd (1 + adapted) * g.total) * r1)⌋)

/-- `create_twoway_context`, HC 56-133: the limits for bisecting block `block` of `currentK` blocks; `g` is the
graph of this block, `adaptive` the option `use_adaptive_epsilon`. -/
def createTwoway? (rd : ℚ → ℚ) (pow : ℚ → ℚ → ℚ) (input : PCtx) (adaptive : Bool) (block currentK : Nat)
    (g : GInfo) : Option PCtx := do
  let l ← twowayLimits? input block currentK
  let num ← finalKRoot? block currentK input.k
  let l ← (if input.uniform && adaptive then adapt? rd pow input g num l else some l)
  PCtx.setup? rd (-1) g [l.1, l.2] true

end Verif.Limits
