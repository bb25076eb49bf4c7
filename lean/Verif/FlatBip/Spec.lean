import Verif.FlatBip.Model
import Verif.InitialFM.Spec

/-!
# Specification for the first bipartitions

`Bipartition g part bw` (`Verif/InitialFM/Spec.lean`): every node is in block 0 or 1, and `bw` are the weights of these blocks.
-/

namespace Verif.FlatBip
open Finset

/-- The weight of all nodes. -/
def total (g : Graph) : Int := ∑ u ∈ range g.n, g.w u

/-- What the random number generators guarantee: random nodes exist. -/
structure Oracle.Ok (n : Nat) (o : Oracle) : Prop where
  seeds : ∀ x ∈ o.seeds, x.1 < n
  draw : ∀ t j, o.draw t j < n

/-- There is a path with `d` edges from `u` to `v`. -/
inductive Walk (g : Graph) : Nat → Nat → Nat → Prop where
  | nil (u : Nat) : Walk g 0 u u
  | snoc {d u v : Nat} (h : Walk g d u v) (e : Nat × Int) (he : e ∈ g.adj v) : Walk g (d + 1) u e.1

/-- The distance from `u` to `v` is `d`. -/
def IsDist (g : Graph) (u v d : Nat) : Prop := Walk g d u v ∧ ∀ d', Walk g d' u v → d ≤ d'

/-- The node `v` is as far away from `u` as possible and `d` is the distance, or `v` is not reachable from `u` and `d` is
`inf`. -/
def Furthest (g : Graph) (inf u v d : Nat) : Prop :=
  v < g.n ∧ ((IsDist g u v d ∧ ∀ x, x < g.n → ∃ d', d' ≤ d ∧ Walk g d' u x) ∨ ((∀ d', ¬ Walk g d' u v) ∧ d = inf))

end Verif.FlatBip
