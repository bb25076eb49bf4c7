import Verif.Subgraph.Model

/-!
# What the limits of v-cycles should be
-/

namespace Verif.Vcycle

/-- Each entry of `coarse` is the sum of some consecutive entries of `fine`, at least one; each entry of `fine` is used once. -/
def Groups (coarse fine : List Int) : Prop := ∃ parts : List (List Int), parts.flatten = fine ∧ coarse = parts.map List.sum ∧ ∀ p, p ∈ parts → p ≠ []

/-- A v-cycle with `c` blocks before one with `next` blocks: `c` is a power of two, or the next v-cycle has at least as many blocks as the next
power of two. -/
def Aligned (c next : Nat) : Prop := ∃ l, c = 2 ^ l ∨ (2 ^ l < c ∧ c < 2 ^ (l + 1) ∧ 2 ^ (l + 1) ≤ next)

/-- Consecutive v-cycles with `c` and `next` blocks, if the graph shall be partitioned into `k` blocks. -/
def Step (k c next : Nat) : Prop := 0 < c ∧ c ≤ next ∧ (c = k ∨ Aligned c next)

/-- The partition has an entry below `k` for each of the `n` nodes. -/
def Blocks (n k : Nat) (p : List Nat) : Prop := p.length = n ∧ ∀ b, b ∈ p → b < k

/-- What the partitioner is given in a v-cycle with the limits `lim`: the partition of the v-cycle before, whose limits are sums of `lim`. -/
def Communities (n : Nat) (lim : List Int) : Option (List Nat × List Int) → Prop
  | none => True
  | some (q, lim') => Blocks n lim'.length q ∧ Groups lim' lim

end Verif.Vcycle
