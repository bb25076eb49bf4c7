import Verif.Graph.Basic

/-!
# Specification: what a contraction is
-/

namespace Verif.Contraction
open Finset

/-- `h` is the graph obtained from `g` by merging, for every `c`, the nodes `u` with `mapping u = c` into node `c`. -/
structure Contracted (g : Graph) (mapping : Nat → Nat) (h : Graph) : Prop where
  /-- every fine node has a coarse node and every coarse node stands for some fine node -/
  maps : ∀ u, u < g.n → mapping u < h.n
  onto : ∀ c, c < h.n → ∃ u, u < g.n ∧ mapping u = c
  /-- node weights add up -/
  weight : ∀ c, c < h.n → h.w c = ∑ u ∈ range g.n, if mapping u = c then g.w u else 0
  /-- neighbours exist, there are no self loops and no parallel edges -/
  wf : h.WF
  loopless : ∀ c, c < h.n → ∀ e ∈ h.adj c, e.1 ≠ c
  simple : ∀ c, c < h.n → ((h.adj c).map Prod.fst).Nodup
  /-- two coarse nodes are adjacent iff some of their fine nodes are -/
  adjacent : ∀ c d, c < h.n → d < h.n → c ≠ d →
    (d ∈ (h.adj c).map Prod.fst ↔
      ∃ u, u < g.n ∧ mapping u = c ∧ ∃ e ∈ g.adj u, mapping e.1 = d)
  /-- edge weights add up -/
  edge : ∀ c d, c < h.n → d < h.n → c ≠ d →
    h.wt c d = ∑ u ∈ range g.n, ∑ v ∈ range g.n, if mapping u = c ∧ mapping v = d then g.wt u v else 0

/-- The weight of block `b`. -/
def blockWeight (g : Graph) (part : Nat → Nat) (b : Nat) : Int :=
  ∑ u ∈ range g.n, if part u = b then g.w u else 0

end Verif.Contraction
