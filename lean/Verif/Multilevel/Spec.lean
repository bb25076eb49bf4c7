import Verif.Multilevel.Model
import Verif.Subgraph.Spec
import Verif.Limits.Props

/-!
# Specification of the multilevel drivers
-/

namespace Verif.Multilevel
open Verif.Subgraph Verif.Limits Verif.Metrics

/-- Every node of the graph has a block, and the block exists. -/
def PG.Valid (p : PG) : Prop := ∀ u, u < p.g.length → p.part u < p.k

/-- What is assumed of the parts: a coarse graph is a graph with positive weights and the same total weight, it is not
larger, and it is smaller if the coarsener says so (C28, C29, C40); bipartitions have two sides (C55, C57); a
refinement keeps the blocks of the nodes valid (C17, C36, C39, C41, C42); parallel loops process everything once. -/
structure Env.Ok (e : Env) : Prop where
  coarsen : ∀ key g c f, (e.coarsen key g).1 = some (c, f) → g.WF → g.Positive →
    c.WF ∧ c.Positive ∧ total c = total g ∧ (∀ u, u < g.length → f u < c.length) ∧ c.length ≤ g.length ∧ c.m ≤ g.m
  shrunk : ∀ key g, (e.coarsen key g).2 = true → ∃ c f, (e.coarsen key g).1 = some (c, f) ∧ c.length < g.length
  /-- a coarsener that pushes levels, or one that does nothing -/
  kind : (∀ key g, (e.coarsen key g).1 = none) ∨ ∀ key g, (e.coarsen key g).1 ≠ none
  bipart : ∀ key g u, e.bipart key g u < 2
  bip : ∀ key g b k u, e.bip key g b k u < 2
  refine : ∀ key p ctx, p.Valid → ∀ u, u < p.g.length → e.refine key p ctx u < p.k
  refine2 : ∀ key p ctx, p.Valid → ∀ u, u < p.g.length → e.refine2 key p ctx u < p.k
  sched : ∀ key p, p.Valid → (e.sched key p).Ok p.g.length p.k p.part
  order : ∀ key n, (e.order key n).Perm (List.range n)

/-- The thread-local memories are intact, and their weight arrays are as long as the other arrays (C30). -/
structure Env.MemOk (e : Env) : Prop where
  lazyMem : ∀ key b, (e.lazyMem key b).ok = true ∧ (e.lazyMem key b).size.nodes ≤ (e.lazyMem key b).size.nw ∧
    (e.lazyMem key b).size.edges ≤ (e.lazyMem key b).size.ew
  tmp : ∀ key b, (e.tmp key b).ok = true

/-- The number of blocks of an intermediate partition: a power of two, or the final number. -/
def Step (k x : Nat) : Prop := 2 ≤ x ∧ x ≤ k ∧ (x = k ∨ ∃ l, x = 2 ^ l)

/-- The partition is the result of a refinement of a partition of the same graph into the same number of blocks, with
the limits `ctx`. -/
def RefinedWith (e : Env) (ctx : PCtx) (p : PG) : Prop :=
  ∃ key q, q.g = p.g ∧ q.k = p.k ∧ q.Valid ∧ p.part = e.refine key q ctx

/-- The caller's limits: explicit ones, or ones derived from an imbalance, for nodes of total weight `W`. -/
def LimitsOk (rd : ℚ → ℚ) (input : PCtx) (W : Int) : Prop :=
  0 < W ∧ W ≤ 2 ^ 49 ∧
  ((input.uniform = false ∧ input.unrelaxed.length = input.k ∧ (∀ x ∈ input.unrelaxed, 0 ≤ x) ∧
      W ≤ 2 * input.unrelaxed.sum) ∨
    (FromImbalance rd input ∧ input.total = W))

/-- A graph of the hierarchy. -/
structure GOk (W : Int) (g : LGraph) : Prop where
  wf : g.WF
  pos : g.Positive
  total : total g = W
  small : g.length < 2 ^ 31

/-- What the drivers need from their parts and from the configuration. -/
structure Hyp (cfg : Cfg) (e : Env) (W : Int) : Prop where
  env : e.Ok
  rd : DoubleRounding cfg.rd
  limits : LimitsOk cfg.rd cfg.input W
  k2 : 2 ≤ cfg.k
  k31 : cfg.k < 2 ^ 31
  limit : 1 ≤ cfg.limit
  levels : cfg.minLevels ≤ 30
  threads : 2 ^ cfg.minLevels * cfg.threads ≤ 2 ^ 32

/-- The threads of initial partitioning are a power of two, and so few that no product wraps. -/
def ThreadsOk (cfg : Cfg) : Prop :=
  cfg.mode = Mode.sequential ∨ ∃ a, cfg.ipThreads? = some (2 ^ a) ∧ 2 ^ cfg.minLevels * 2 ^ a ≤ 2 ^ 32

/-- The last step was a refinement with the limits for this number of blocks. -/
def IsRefined (cfg : Cfg) (e : Env) (p : PG) : Prop :=
  ∃ ctx, createKway? cfg.rd cfg.input (info p.g) p.k = some ctx ∧ RefinedWith e ctx p

end Verif.Multilevel
