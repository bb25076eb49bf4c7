import Verif.Dist.CutSpec

/-!
# What an iteration of distributed Jet refinement does to the partition of the whole graph
-/

namespace Verif.Dist

/-- All processes agree on the partition `P`: process `p` has the block of each of its nodes and ghost nodes, and the weight of each
of the `k` blocks. -/
def Agree (dist : List Nat) (g : Nat → DGraph) (Wt : Nat → Int) (k : Nat) (part : Nat → Nat → Nat) (weights : Nat → Nat → Int)
    (P : Nat → Nat) : Prop :=
  ∀ p, p < procs dist → (∀ l v, (g p).localToGlobal? l = some v → part p l = P v) ∧
    ∀ b, b < k → weights p b = blockWeight dist Wt P b

/-- The gain and the target of node `a`: a node that has just been moved stays where it is. -/
def candidate (P : Nat → Nat) (moved : Nat → Bool) (best : Nat → Int × Nat) (accept : Nat → Bool) (a : Nat) : Int × Nat :=
  if moved a = true then (0, P a) else if (best a).2 ≠ P a ∧ accept a = true then best a else (0, P a)

/-- The node `b` is expected to move before its neighbour `a`: it has a higher gain, or the same gain and a smaller ID on the same
process. -/
def Before (dist : List Nat) (C : Nat → Int × Nat) (p b a : Nat) : Prop :=
  (C b).1 > (C a).1 ∨ ((C b).1 = (C a).1 ∧ (first dist p ≤ b ∧ b < first dist (p + 1)) ∧ b < a)

instance (dist : List Nat) (C : Nat → Int × Nat) (p b a : Nat) : Decidable (Before dist C p b a) := by
  unfold Before; infer_instance

/-- By how much the cut is expected to decrease if the node `u` of process `p` moves to its target. -/
def expectedGain (dist : List Nat) (inp : Nat → Input) (P : Nat → Nat) (C : Nat → Int × Nat) (p u : Nat) : Int :=
  (((inp p).neighbours u).map fun x =>
    let block := if Before dist C p x.1 (first dist p + u) then (C x.1).2 else P x.1
    if block = (C (first dist p + u)).2 then x.2 else if block = P (first dist p + u) then -x.2 else 0).sum

/-- The node `u` of process `p` is moved. -/
def Moves (dist : List Nat) (inp : Nat → Input) (P : Nat → Nat) (C : Nat → Int × Nat) (p u : Nat) : Prop :=
  P (first dist p + u) ≠ (C (first dist p + u)).2 ∧ 0 ≤ expectedGain dist inp P C p u

instance (dist : List Nat) (inp : Nat → Input) (P : Nat → Nat) (C : Nat → Int × Nat) (p u : Nat) :
    Decidable (Moves dist inp P C p u) := by unfold Moves; infer_instance

end Verif.Dist
