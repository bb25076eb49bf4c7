import Mathlib.Algebra.BigOperators.Group.List.Basic
import Verif.NodeBalancer.Model

/-!
# Specification of the distributed balancer
-/

namespace Verif.NodeBalancer

/-- The weight of a block in a partition of the nodes. -/
def blockWeight (S : Sys) (P : Nat → Nat) (b : Nat) : Int := ((List.range S.n).map fun u => if P u = b then S.wt u else 0).sum

/-- All ranks agree on a partition: each one has the right blocks for the nodes that it knows, and the right weights of all blocks. -/
structure Consistent (S : Sys) (P : Nat → Nat) (s : Nat → Rank) : Prop where
  part : ∀ r, r < S.N → ∀ u, u < S.n → S.known r u → (s r).part u = P u
  weights : ∀ r, r < S.N → ∀ b, b < S.k → (s r).bw b = blockWeight S P b
  block : ∀ u, u < S.n → P u < S.k

/-- What the ranks propose: different own nodes, each with its block, which is overloaded, its weight, and some block. -/
structure Proposal (S : Sys) (P : Nat → Nat) (picks : Nat → List Cand) : Prop where
  node : ∀ r, r < S.N → ∀ c, c ∈ picks r → c.id < S.n ∧ S.owner c.id = r ∧ c.from = P c.id ∧ c.weight = S.wt c.id ∧ c.to < S.k
  overloaded : ∀ r, r < S.N → ∀ c, c ∈ picks r → S.maxw c.from < blockWeight S P c.from
  distinct : ∀ r, r < S.N → ((picks r).map Cand.id).Nodup

/-- A system: there are ranks and blocks, node ids are valid, the weights are positive, and every rank knows its own nodes. -/
structure Sys.Ok (S : Sys) : Prop where
  ranks : 0 < S.N
  blocks : 0 < S.k
  ids : S.n ≤ kInvalid
  weights : ∀ u, u < S.n → 0 < S.wt u
  own : ∀ u, u < S.n → S.known (S.owner u) u = true

/-- The total weight above the limits. -/
def totalOverload (S : Sys) (P : Nat → Nat) : Int := ((List.range S.k).map fun b => max 0 (blockWeight S P b - S.maxw b)).sum

/-- The weight that moves to a block. -/
def inW (l : List Cand) (b : Nat) : Int := (l.map fun c => if c.from ≠ c.to ∧ c.to = b then c.weight else 0).sum

/-- Together, the moves do not overload any of their target blocks. -/
def Feasible (E : Env) (l : List Cand) : Prop := ∀ b, (∃ c ∈ l, c.from ≠ c.to ∧ c.to = b) → E.bw b + inW l b ≤ E.maxw b

/-- The candidate alone does not overload its target block, or it has no target block. -/
def Fits (E : Env) (c : Cand) : Prop := c.from = c.to ∨ E.bw c.to + c.weight ≤ E.maxw c.to

end Verif.NodeBalancer
