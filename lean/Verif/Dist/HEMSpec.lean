import Verif.Dist.HEM
import Verif.Dist.ContractSpec
import Verif.Dist.ColoredLPRefine

/-!
# What a matching is
-/

namespace Verif.Dist

/-- Each process knows the weights `Wt` of its nodes and ghost nodes. -/
def KnowsWeights (dist : List Nat) (g : Nat → DGraph) (Wt : Nat → Int) : Prop :=
  ∀ p, p < procs dist → ∀ l v, (g p).localToGlobal? l = some v → (g p).nodeWeight? l = some (Wt v)

/-- The clusters `C` are a matching: a cluster has at most two nodes and the name of one of them, and two nodes of a cluster are neighbours,
joined by an edge of positive weight, and not heavier than the limit, unless it is ignored. -/
structure IsMatching (dist : List Nat) (inp : Nat → Input) (Wt : Nat → Int) (cfg : HEMConfig) (C : Nat → Nat) : Prop where
  name : ∀ a, a < globalN dist → C (C a) = C a
  two : ∀ a b c, a < globalN dist → b < globalN dist → c < globalN dist → C a = C b → C b = C c → a = b ∨ b = c ∨ a = c
  edge : ∀ a b, a < globalN dist → b < globalN dist → a ≠ b → C a = C b → ∃ w, 0 < w ∧ ((a, b, w) ∈ edges dist inp ∨ (b, a, w) ∈ edges dist inp)
  weight : cfg.ignoreLimit = false → ∀ a b, a < globalN dist → b < globalN dist → a ≠ b → C a = C b → Wt a + Wt b ≤ cfg.limit

/-- The classes of the order are the colours `color`. -/
def ColorOrder.Sorts (dist : List Nat) (ord : ColorOrder) (color : Nat → Nat) : Prop :=
  ∀ p, p < procs dist → ∀ c, c < ord.colors → ∀ i, ord.start p c ≤ i → i < ord.start p (c + 1) → color (first dist p + ord.node p i) = c

/-- Each node of the colour is visited once, each thread does its part of each loop, and each request is handled once. -/
structure HEMSchedule.Ok (dist : List Nat) (ord : ColorOrder) (c : Nat) (sch : HEMSchedule) : Prop where
  visits : ∀ p, p < procs dist → ((sch.visits p).map (·.node)).Perm
    ((List.range' (ord.start p c) (ord.start p (c + 1) - ord.start p c)).map (ord.node p))
  ex : Executions dist (fun p => ord.start p c) (fun p => ord.start p (c + 1)) sch.ex
  order : ∀ p l, ((sch.order p l).map (·.1)).Perm l
  shuffle : ∀ p l, (sch.shuffle p l).Perm l

end Verif.Dist
