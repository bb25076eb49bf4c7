import Verif.Limits.Model

/-!
# Specification of the balance constraints of intermediate partitions
-/

namespace Verif.Limits
open Verif.Metrics Finset

/-- The final blocks `[lo, hi)` into which block `b` of `2^l` blocks is split: the range is halved level by level,
and the first half is the larger one. -/
def finalRange (k : Nat) : (l b : Nat) → Nat × Nat
  | 0, _ => (0, k)
  | l + 1, b =>
    let r := finalRange k l (b / 2)
    let mid := r.1 + (r.2 - r.1 + 1) / 2
    if b % 2 = 0 then (r.1, mid) else (mid, r.2)

/-- The sum of the limits of the final blocks `[r.1, r.2)`. -/
def sumRange (limit : Nat → Int) (r : Nat × Nat) : Int := ∑ f ∈ Ico r.1 r.2, limit f

/-- Rounding to double precision: in addition to `Rounding`, the relative error is at most `2^-53` (numbers are
neither too large nor subnormal). -/
structure DoubleRounding (rd : ℚ → ℚ) : Prop extends Rounding rd where
  rel : ∀ x, |rd x - x| ≤ |x| / 2 ^ 53

/-- The weight of block `b` if node `i` of weight `ws[i]` is put into block `f i`. -/
def assigned (ws : List Int) (f : Nat → Nat) (b : Nat) : Int :=
  ∑ i ∈ range ws.length, if f i = b then ws.getD i 0 else 0

/-- There is a partition into `limits.length` blocks that respects the limits, whatever the nodes (with total weight
`total` and at most `maxNode` each) are. -/
def Satisfiable (limits : List Int) (total maxNode : Int) : Prop :=
  ∀ ws : List Int, ws.sum = total → (∀ w ∈ ws, 0 ≤ w ∧ w ≤ maxNode) →
    ∃ f : Nat → Nat, (∀ i, i < ws.length → f i < limits.length) ∧
      ∀ b, b < limits.length → assigned ws f b ≤ limits.getD b 0

end Verif.Limits
