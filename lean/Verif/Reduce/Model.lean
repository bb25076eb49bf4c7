import Verif.Util

/-!
# Model of parallel reductions and prefix sums

Source: `kaminpar-common/parallel/algorithm.h` (PA).  The scheduler of TBB is abstracted to what its
specification allows: a reduction body processes some ranges one after the other, starting with the initial
value of the body; bodies are joined in a tree.
-/

namespace Verif.Reduce

/-- How TBB executed a reduction: a body that processed some ranges `[first, last)`, or the join of two
bodies. -/
inductive Sched
  | body (ranges : List (Nat × Nat))
  | join (l r : Sched)

/-- The ranges in the order of the schedule's leaves. -/
def Sched.ranges : Sched → List (Nat × Nat)
  | .body rs => rs
  | .join l r => l.ranges ++ r.ranges

/-- The indices of a range. -/
def indices (r : Nat × Nat) : List Nat := List.range' r.1 (r.2 - r.1)

/-- The schedule processes exactly the indices from `a` to `b - 1`, in order. -/
def Sched.covers (s : Sched) (a b : Nat) : Prop := s.ranges.flatMap indices = List.range' a (b - a)

/-- `operator()` of a reduction body, PA 28-36, 60-68, 107-115 and 189-198: folds `op` over the range. -/
def step {α : Type} (op : α → α → α) (f : Nat → α) (ans : α) (r : Nat × Nat) : α :=
  (indices r).foldl (fun ans i => op ans (f i)) ans

/-- `tbb::parallel_reduce` with such a body: each body starts with `e`; `join` is `op`. -/
def Sched.eval {α : Type} (op : α → α → α) (e : α) (f : Nat → α) : Sched → α
  | .body rs => rs.foldl (step op f) e
  | .join l r => op (l.eval op e f) (r.eval op e f)

/-- `accumulate(r, initial)`, PA 18-50 and 86-90. -/
def accumulate (f : Nat → Int) (initial : Int) (s : Sched) : Int := initial + s.eval (· + ·) 0 f

/-- `max_element`, PA 92-166; `lowest` is `numeric_limits::min()`. -/
def maxElement (lowest : Int) (f : Nat → Int) (s : Sched) : Int := s.eval max lowest f

/-- `max_difference`, PA 168-210, for unsigned values in increasing order; `size` elements. -/
def maxDifference (a : Nat → Nat) (size : Nat) (s : Sched) : Nat :=
  if size = 0 then 0
  else if size = 1 then 0
  else s.eval max 0 fun i => a (i + 1) - a i

/-- The final scan of one range in place, PA 229-237: `(first, last)` with the sum of everything before. -/
def finalScan (m : Nat → Int) (c : (Nat × Nat) × Int) : Nat → Int :=
  ((indices c.1).foldl (fun (mt : (Nat → Int) × Int) i =>
    let temp := mt.2 + mt.1 i
    (upd mt.1 i temp, temp)) (m, c.2)).1

/-- `prefix_sum` in place, PA 217-241.  The ranges are scanned finally in the order `chunks`; the sum that
is handed to a range was computed by preliminary scans and joins of the ranges before it, from the input
values (TBB scans a range finally only after the preliminary scan of that range). -/
def prefixSum (m : Nat → Int) (chunks : List ((Nat × Nat) × Sched)) : Nat → Int :=
  (chunks.map fun c => (c.1, c.2.eval (· + ·) 0 m)).foldl finalScan m

end Verif.Reduce
