/-!
# Model of the integer helpers

Sources: `kaminpar-common/math.h`, `kaminpar-common/degree_buckets.h`,
`kaminpar-common/parallel/loops.h`.

Unsigned integers are natural numbers; results that the C++ code leaves undefined
(division by zero, shift by at least the width, `__builtin_clz(0)`) are `none`.
-/

namespace Verif.Math

/-- Unsigned subtraction of a `w`-bit type: wraps modulo `2^w`
(used in `kaminpar-common/math.h:181`, `element - rem`). -/
def subW (w a b : Nat) : Nat := (a + 2 ^ w - b) % 2 ^ w

/-- `math::div_ceil`, `kaminpar-common/math.h:60-62`.  Division by zero is undefined: `none`. -/
def divCeil? (x y : Nat) : Option Nat :=
  if y = 0 then none else some (x / y + (if x % y ≠ 0 then 1 else 0))

/-- `math::compute_local_range`, `kaminpar-common/math.h:150-157`.
`none` iff `size = 0` (integer division by zero). All intermediate values are at most `n`,
see `Verif.Math.localRange_bounds`, so no wrap-around can occur for unsigned types. -/
def localRange? (n size rank : Nat) : Option (Nat × Nat) :=
  if size = 0 then none
  else
    let chunk := n / size
    let remainder := n % size
    let fr := rank * chunk + min rank remainder
    let to := min (fr + (if rank < remainder then chunk + 1 else chunk)) n
    some (fr, to)

/-- `math::compute_local_range_rank`, `kaminpar-common/math.h:173-183`, for a `w`-bit unsigned
type: `element - rem` may wrap, and the wrapped value is then discarded by the conditional. -/
def localRangeRank? (w n size element : Nat) : Option Nat :=
  if n ≤ size then some element
  else if size = 0 then none
  else
    let c := n / size
    let rem := n % size
    let r0 := subW w element rem / c
    some (if element < rem ∨ r0 < rem then element / (c + 1) else r0)

/-- `math::distribute_round_robin`, `kaminpar-common/math.h:201-207`. -/
def distributeRoundRobin? (w n size element : Nat) : Option Nat := do
  let owner ← localRangeRank? w n size element
  let r ← localRange? n size owner
  let localIdx := element - r.1
  if size = 0 then none
  else
    let r' ← localRange? n size (localIdx % size)
    some (r'.1 + (localIdx / size) * size + owner)

/-- `std::upper_bound(distribution.begin() + 1, distribution.end(), value)` on a sorted
sequence: index of the first element (from position 1) that is larger than `value`. -/
def upperBoundFrom1 (value : Nat) : List Nat → Nat
  | [] => 0
  | _ :: rest => 1 + rest.findIdx (fun x => value < x)

/-- `math::find_in_distribution`, `kaminpar-common/math.h:185-189`.  The distribution is an array
`0 = d₀ ≤ d₁ ≤ … ≤ d_p`.  `upper_bound` is modelled by a linear scan (equal to the binary search on
sorted input). -/
def findInDistribution (value : Nat) (distribution : List Nat) : Nat :=
  upperBoundFrom1 value distribution - 1

/-- `deterministic_for`, `kaminpar-common/parallel/loops.h:82-95`: the list of
`(first, last+1, cpu)` calls made, in CPU order, for `maxConc` threads.
The calls run in parallel, so the caller may see them in any order. -/
def deterministicForCalls (maxConc fr to : Nat) : List (Nat × Nat × Nat) :=
  let n := to - fr
  let p := min maxConc n
  (List.range p).filterMap fun cpu =>
    (localRange? n p cpu).map fun r => (fr + r.1, fr + r.2, cpu)

/-- `__builtin_clz` on a `w`-bit argument: number of leading zero bits (for `x = 0` the builtin is
undefined; the callers below treat that case). -/
def clz : Nat → Nat → Nat
  | 0, _ => 0
  | w + 1, x => if x.testBit w then 0 else 1 + clz w x

/-- `math::floor_log2`, `kaminpar-common/math.h:80-95`: `width - clz(arg) - 1`; undefined for 0. -/
def floorLog2? (w arg : Nat) : Option Nat :=
  if arg = 0 then none else some (w - clz w arg - 1)

/-- `math::ceil_log2`, `kaminpar-common/math.h:103-105`. The power of two test is
`(arg & (arg - 1)) == 0`. -/
def ceilLog2? (w arg : Nat) : Option Nat :=
  (floorLog2? w arg).map fun l => l + 1 - (if arg &&& (arg - 1) = 0 then 1 else 0)

/-- `math::floor2`, `kaminpar-common/math.h:97-99`: `1 << floor_log2(arg)`, where `1` is a 32-bit
`int`, so a shift by 32 or more is undefined whatever the width of `T`. -/
def floor2? (w arg : Nat) : Option Nat :=
  (floorLog2? w arg).bind fun l => if l < 32 then some (2 ^ l) else none

/-- `math::ceil2`, `kaminpar-common/math.h:107-109`: `1 << ceil_log2(arg)` with the same 32-bit
`int` literal. -/
def ceil2? (w arg : Nat) : Option Nat :=
  (ceilLog2? w arg).bind fun l => if l < 32 then some (2 ^ l) else none

/-- `kNumberOfDegreeBuckets<NodeID>`, `kaminpar-common/degree_buckets.h:16-17`
(`numeric_limits<NodeID>::digits + 1`, 32-bit node IDs). -/
def numDegreeBuckets : Nat := 32 + 1

/-- `lowest_degree_in_bucket`, `kaminpar-common/degree_buckets.h:19-21`: `(1u << bucket) >> 1u`;
undefined for `bucket ≥ 32`. -/
def lowestDegreeInBucket? (bucket : Nat) : Option Nat :=
  if bucket < 32 then some ((2 ^ bucket) >>> 1) else none

/-- `degree_bucket`, `kaminpar-common/degree_buckets.h:23-25`, 32-bit node IDs. -/
def degreeBucket? (degree : Nat) : Option Nat :=
  if degree = 0 then some 0 else (floorLog2? 32 degree).map (· + 1)

/-- `math::split_integral(value)` with the default ratio `0.5`, `kaminpar-common/math.h:133-137`:
`(ceil(value * 0.5), floor(value * 0.5))`.  The code computes in `double`; for 32-bit values this is
exact, so the model uses integer halves. -/
def splitIntegral (value : Nat) : Nat × Nat := ((value + 1) / 2, value / 2)

end Verif.Math
