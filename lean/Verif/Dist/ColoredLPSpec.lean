import Verif.Dist.CutSpec

/-!
# What coloured label propagation does to a partition
-/

namespace Verif.Dist

/-- The weight of the edges between node `a` and the nodes of block `b`. -/
def conn (dist : List Nat) (inp : Nat → Input) (P : Nat → Nat) (a b : Nat) : Int :=
  (((edges dist inp).filter fun e => decide (e.1 = a ∧ P e.2.1 = b)).map (·.2.2)).sum

/-- No node is its own neighbour. -/
def LoopFree (dist : List Nat) (inp : Nat → Input) : Prop := ∀ e, e ∈ edges dist inp → e.1 ≠ e.2.1

end Verif.Dist
