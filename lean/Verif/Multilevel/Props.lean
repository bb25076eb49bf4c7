import Verif.Multilevel.Demo
import Verif.Limits.Twoway

/-!
# C59: every partitioning scheme returns a partition into `k` blocks

`deep?`, `kway?` and `rb?` are the three partitioning schemes.  Their parts (coarsener, bipartitioner, refiner,
schedules of the parallel loops, contents of uninitialised memory) are arbitrary as far as `Env.Ok` allows.
-/

namespace Verif.Multilevel
open Verif.Subgraph Verif.Subgraph.Props Verif.Blocks Verif.Blocks.Props Verif.Limits Verif.Metrics

/-! ## Deep multilevel partitioning -/

/-- **C59 (deep multilevel partitioning).** For every graph with positive weights, every `k ≥ 2`, every mode of initial
partitioning and all parts that do their work, the partitioner ends (with enough fuel); it returns a partition of the
given graph into exactly `k` blocks, every node has an existing block, and the last thing that happened to the partition
is a refinement with the limits for `k` blocks. -/
theorem C59_deep_partition {cfg : Cfg} {e : Env} {W : Int} (h : Hyp cfg e W) (ht : ThreadsOk cfg) {g : LGraph} (hg : GOk W g) :
    ∃ F, ∀ fuel, F ≤ fuel → ∃ r, deep? cfg e fuel g = some r ∧ r.1.g = g ∧ r.1.k = cfg.k ∧
      (∀ u, u < g.length → r.1.part u < cfg.k) ∧
      ∃ ctx, createKway? cfg.rd cfg.input (info g) cfg.k = some ctx ∧ RefinedWith e ctx r.1 := by
  obtain ⟨F, hF⟩ := deep_spec h ht hg
  refine ⟨F, fun fuel hf => ?_⟩
  obtain ⟨r, r1, r2, r3, r4, ⟨ctx, r5, r6⟩, _⟩ := hF fuel hf
  refine ⟨r, r1, r2, r3, ?_, ctx, ?_, r6⟩
  · intro u hu
    have := r4 u (by rw [r2]; exact hu)
    rw [r3] at this
    exact this
  · rw [r2, r3] at r5
    exact r5

/-- **C59 (the limits of the last refinement).** If the caller gave explicit limits, then the limits of the last
refinement are exactly these. -/
theorem C59_deep_limits {cfg : Cfg} {e : Env} {W : Int} (h : Hyp cfg e W) (ht : ThreadsOk cfg) {g : LGraph} (hg : GOk W g)
    (hu : cfg.input.uniform = false) (hlen : cfg.input.unrelaxed.length = cfg.k) (hn : g.length = cfg.input.n) :
    ∃ F, ∀ fuel, F ≤ fuel → ∃ r ctx, deep? cfg e fuel g = some r ∧ RefinedWith e ctx r.1 ∧ ctx.k = cfg.k ∧
      ctx.maxBw = cfg.input.unrelaxed := by
  obtain ⟨F, hF⟩ := C59_deep_partition h ht hg
  refine ⟨F, fun fuel hf => ?_⟩
  obtain ⟨r, r1, _, _, _, ctx, r5, r6⟩ := hF fuel hf
  obtain ⟨c, c1, c2, c3, _⟩ := C58_explicit_limits_final (rd := cfg.rd) hu hlen (g := info g) hn
  have : ctx = c := Option.some.inj (r5.symm.trans c1)
  subst this
  exact ⟨r, ctx, r1, r6, c2, c3⟩

/-- **C59 (the limits of the last refinement, imbalance).** If the caller gave an imbalance, then the limits of the last
refinement differ from those that follow from the imbalance by at most one. -/
theorem C59_deep_limits_imbalance {cfg : Cfg} {e : Env} {W : Int} (h : Hyp cfg e W) (ht : ThreadsOk cfg) {g : LGraph}
    (hg : GOk W g) (hi : FromImbalance cfg.rd cfg.input) (hm : ∀ b, b < cfg.k → cfg.input.maxBw.getD b 0 < 2 ^ 49)
    (hn : g.length = cfg.input.n) :
    ∃ F, ∀ fuel, F ≤ fuel → ∃ r ctx, deep? cfg e fuel g = some r ∧ RefinedWith e ctx r.1 ∧ ctx.k = cfg.k ∧
      ctx.maxBw.length = cfg.k ∧ ∀ b, b < cfg.k → |ctx.maxBw.getD b 0 - cfg.input.maxBw.getD b 0| ≤ 1 := by
  obtain ⟨F, hF⟩ := C59_deep_partition h ht hg
  refine ⟨F, fun fuel hf => ?_⟩
  obtain ⟨r, r1, _, _, _, ctx, r5, r6⟩ := hF fuel hf
  obtain ⟨c, c1, c2, _, c4, c5⟩ := C58_imbalance_limits_final h.rd hi hm (g := info g) hn
  have : ctx = c := Option.some.inj (r5.symm.trans c1)
  subst this
  exact ⟨r, ctx, r1, r6, c2, c4, c5⟩

/-- **C59 (memory of deep multilevel partitioning).** No store of the extensions leaves the memory that was allocated
for subgraphs if this memory is allocated per thread (the default), or if the input graph is so large that its
partition has `k` blocks before the top level, or so small that it is not coarsened.  What is missing: with the shared
memory and an intermediate graph it is false (`C59_deep_memory_not_safe`). -/
theorem C59_deep_memory_partial {cfg : Cfg} {e : Env} {W : Int} (h : Hyp cfg e W) (ht : ThreadsOk cfg) {g : LGraph} (hg : GOk W g)
    (hm : e.MemOk) (hor : cfg.lazy = true ∨ kForN? g.length cfg.limit cfg.k = some cfg.k ∨ g.length ≤ cfg.threshold) :
    ∃ F, ∀ fuel, F ≤ fuel → ∃ r, deep? cfg e fuel g = some r ∧ r.2 = true := by
  obtain ⟨F, hF⟩ := deep_spec h ht hg
  refine ⟨F, fun fuel hf => ?_⟩
  obtain ⟨r, r1, _, _, _, _, r6⟩ := hF fuel hf
  exact ⟨r, r1, r6 hm hor⟩

/-- **C59 (shared memory is used after it was freed).** The memory is freed after the extension on the level on which
the search for its size stopped; the extension at the top level then writes to memory of size zero.  The path of eight
nodes, eight blocks, contraction limit 2. -/
theorem C59_deep_memory_not_safe :
    (deep? (demoCfg [1, 1, 1, 1, 1, 1, 1, 1] .sequential false) demo 10 path8).map Prod.snd = some false := by
  decide +kernel

-- non-vacuity: all modes, both kinds of memory
example : Hyp (demoCfg [2, 2, 2, 2] .sync false) demo 8 ∧ ThreadsOk (demoCfg [2, 2, 2, 2] .sync false) ∧ GOk 8 path8 ∧
    demo.MemOk ∧ (demoCfg [2, 2, 2, 2] .sync false).input.uniform = false ∧
    kForN? path8.length (demoCfg [2, 2, 2, 2] .sync false).limit (demoCfg [2, 2, 2, 2] .sync false).k =
      some (demoCfg [2, 2, 2, 2] .sync false).k ∧
    (deep? (demoCfg [2, 2, 2, 2] .sync false) demo 10 path8).map (fun r => (r.1.k, (List.range 8).map r.1.part, r.2)) =
      some (4, [0, 0, 1, 1, 2, 2, 3, 3], true) := by
  refine ⟨demo_hyp (by decide) (by decide) (by decide) (by decide) _ _, Or.inr ⟨1, by decide +kernel, by decide⟩, path8_ok,
    demo_memOk, rfl, by decide +kernel, by decide +kernel⟩

example : Hyp (demoCfg [1, 1, 1, 1, 1, 1, 1, 1] .sequential true) demo 8 ∧
    ThreadsOk (demoCfg [1, 1, 1, 1, 1, 1, 1, 1] .sequential true) ∧
    (deep? (demoCfg [1, 1, 1, 1, 1, 1, 1, 1] .sequential true) demo 10 path8).map
      (fun r => (r.1.k, (List.range 8).map r.1.part, r.2)) = some (8, [0, 1, 2, 3, 4, 5, 6, 7], true) := by
  refine ⟨demo_hyp (by decide) (by decide) (by decide) (by decide) _ _, Or.inl rfl, by decide +kernel⟩

-- non-vacuity: an imbalance of 1/2, so that every block of the path may have weight 3
example : FromImbalance id ⟨8, 8, 8, 1, 4, [3, 3, 3, 3], [], 12, 1 / 2, true⟩ ∧
    LimitsOk id ⟨8, 8, 8, 1, 4, [3, 3, 3, 3], [], 12, 1 / 2, true⟩ 8 := by
  have h : FromImbalance id ⟨8, 8, 8, 1, 4, [3, 3, 3, 3], [], 12, 1 / 2, true⟩ := by
    refine ⟨rfl, by decide +kernel, by decide, by decide, by decide, by decide, by decide, rfl, ?_⟩
    decide +kernel
  exact ⟨h, by decide, by decide, Or.inr ⟨h, rfl⟩⟩

/-- **C59 (threads of initial partitioning).** `ThreadsOk` holds if the number of threads times the load is at least
one: the number of copies is a power of two, and not larger than the number of threads. -/
theorem C59_threads {cfg : Cfg} {e : Env} {W : Int} (h : Hyp cfg e W) (hth : cfg.threads ≤ 2 ^ 31) (hl1 : cfg.load ≤ 1)
    (hone : 1 ≤ cfg.rd (cfg.rd cfg.threads * cfg.load)) :
    ThreadsOk cfg ∧ ∃ a, cfg.ipThreads? = some (2 ^ a) ∧ 2 ^ a ≤ cfg.threads := by
  obtain ⟨a, ha, hle⟩ := ipThreads_pow h.rd hth hl1 hone
  refine ⟨Or.inr ⟨a, ha, ?_⟩, a, ha, hle⟩
  exact le_trans (Nat.mul_le_mul_left _ hle) h.threads

example : (demoCfg [2, 2, 2, 2] .sync false).ipThreads? = some 2 := by decide +kernel

/-- **C59 (threads of initial partitioning, undefined).** With one thread and a load below one, the number of copies is
`2^⌊log 0⌋`. -/
theorem C59_threads_not_defined : ({ demoCfg [2, 2, 2, 2] .sync false with threads := 1, load := 1 / 2 } : Cfg).ipThreads? = none := by
  decide +kernel

/-! ## The best of several partitions -/

/-- What the loop of `select_best` has found so far. -/
theorem selectLoop_best (limits : List Int) : ∀ (ps done : List PG) (b : Best),
    (∀ p ∈ done, b.feasible = false → isFeasible p limits = false) →
    (∀ p ∈ done, isFeasible p limits = b.feasible → b.cut ≤ edgeCut p) →
    (done ≠ [] → ∃ p, done[b.index]? = some p ∧ b.feasible = isFeasible p limits ∧ b.cut = edgeCut p ∧
      ∀ i q, i < b.index → done[i]? = some q → isFeasible q limits = b.feasible → b.cut < edgeCut q) →
    (done = [] → b.feasible = false ∧ ∀ p ∈ ps, edgeCut p < b.cut) →
    (done ++ ps ≠ []) →
    let r := selectLoop limits ps done.length b
    ∃ p, (done ++ ps)[r.index]? = some p ∧
      (∀ q ∈ done ++ ps, isFeasible q limits = true → isFeasible p limits = true) ∧
      (∀ q ∈ done ++ ps, isFeasible q limits = isFeasible p limits → edgeCut p ≤ edgeCut q) ∧
      ∀ i q, i < r.index → (done ++ ps)[i]? = some q → isFeasible q limits = isFeasible p limits → edgeCut p < edgeCut q := by
  intro ps
  induction ps with
  | nil =>
    intro done b h1 h2 h3 _ hne
    rw [List.append_nil] at hne ⊢
    obtain ⟨p, p1, p2, p3, p4⟩ := h3 hne
    refine ⟨p, p1, ?_, ?_, ?_⟩
    · intro q hq hf
      rw [← p2]
      cases hb : b.feasible with
      | true => rfl
      | false => rw [h1 q hq hb] at hf; cases hf
    · intro q hq hf
      rw [← p3]
      exact h2 q hq (hf.trans p2.symm)
    · intro i q hi hq hf
      rw [← p3]
      exact p4 i q hi hq (hf.trans p2.symm)
  | cons x ps ih =>
    intro done b h1 h2 h3 h4 hne
    have key := ih (done ++ [x])
      (if (isFeasible x limits = b.feasible ∧ edgeCut x < b.cut) ∨ (isFeasible x limits = true ∧ b.feasible = false) then
        ⟨done.length, edgeCut x, isFeasible x limits⟩ else b)
    rw [List.length_append, List.length_singleton, List.append_assoc, List.singleton_append] at key
    refine key ?_ ?_ ?_ ?_ (by simp)
    · intro p hp
      split
      · rename_i hc
        dsimp only
        intro hf
        rw [List.mem_append, List.mem_singleton] at hp
        rcases hp with hp | rfl
        · rcases hc with ⟨hc, _⟩ | ⟨hc, _⟩
          · exact h1 p hp (by rw [← hc]; exact hf)
          · rw [hc] at hf; cases hf
        · exact hf
      · rename_i hc
        intro hf
        rw [List.mem_append, List.mem_singleton] at hp
        rcases hp with hp | rfl
        · exact h1 p hp hf
        · cases hx : isFeasible p limits with
          | false => rfl
          | true => exact absurd (Or.inr ⟨hx, hf⟩) hc
    · intro p hp
      split
      · rename_i hc
        dsimp only
        intro hf
        rw [List.mem_append, List.mem_singleton] at hp
        rcases hp with hp | rfl
        · rcases hc with ⟨hc, hlt⟩ | ⟨hc, hb⟩
          · have := h2 p hp (hf.trans hc)
            omega
          · rw [hc, h1 p hp hb] at hf; cases hf
        · exact le_refl _
      · rename_i hc
        intro hf
        rw [List.mem_append, List.mem_singleton] at hp
        rcases hp with hp | rfl
        · exact h2 p hp hf
        · by_contra hlt
          exact hc (Or.inl ⟨hf, by omega⟩)
    · intro _
      split
      · rename_i hc
        refine ⟨x, by simp, rfl, rfl, ?_⟩
        dsimp only
        intro i q hi hq hf
        rw [List.getElem?_append_left hi] at hq
        have hqm := List.mem_of_getElem? hq
        rcases hc with ⟨hc, hlt⟩ | ⟨hc, hb⟩
        · have := h2 q hqm (hf.trans hc)
          omega
        · rw [hc, h1 q hqm hb] at hf; cases hf
      · rename_i hc
        have hd : done ≠ [] := by
          intro hd
          obtain ⟨e1, e2⟩ := h4 hd
          have := e2 x List.mem_cons_self
          apply hc
          cases hx : isFeasible x limits with
          | true => exact Or.inr ⟨rfl, e1⟩
          | false => exact Or.inl ⟨e1.symm, this⟩
        obtain ⟨p, p1, p2, p3, p4⟩ := h3 hd
        have hlt : b.index < done.length := (List.getElem?_eq_some_iff.1 p1).1
        refine ⟨p, by rw [List.getElem?_append_left hlt]; exact p1, p2, p3, ?_⟩
        intro i q hi hq
        rw [List.getElem?_append_left (by omega)] at hq
        exact p4 i q hi hq
    · intro hd
      simp at hd

/-- Every block of the partition respects its limit. -/
def Feasible (limits : List Int) (p : PG) : Prop :=
  ∀ b, b < p.k → ((List.range p.g.length).map fun u => if p.part u = b then p.g.w u else 0).sum ≤ limits.getD b 0

/-- The weight of the edges between different blocks, seen from both ends. -/
def cut2 (p : PG) : Int :=
  ((List.range p.g.length).map fun u => ((p.g.adj u).map fun a => if p.part u ≠ p.part a.1 then a.2 else 0).sum).sum

theorem feasible_iff (limits : List Int) (p : PG) : isFeasible p limits = true ↔ Feasible limits p := by
  unfold isFeasible Feasible blockWeight
  simp [List.all_eq_true]

theorem feasible_eq (limits : List Int) (p q : PG) (h : Feasible limits q ↔ Feasible limits p) :
    isFeasible q limits = isFeasible p limits := by
  rw [Bool.eq_iff_iff, feasible_iff, feasible_iff, h]

theorem cut_eq (p : PG) : edgeCut p = cut2 p / 2 := by
  unfold edgeCut cut2
  simp only [ne_eq, ite_not]

/-- **C59 (selection).** `select_best` returns the first of the best partitions: a feasible one if there is one, and
among those the one with the smallest cut. -/
theorem C59_select_best (limits : List Int) {ps : List PG} (hne : ps ≠ []) (hcut : ∀ p ∈ ps, cut2 p / 2 < 2 ^ 63 - 1) :
    ∃ p, ps[selectBest maxEdgeWeight limits ps]? = some p ∧
      (∀ q ∈ ps, Feasible limits q → Feasible limits p) ∧
      (∀ q ∈ ps, (Feasible limits q ↔ Feasible limits p) → cut2 p / 2 ≤ cut2 q / 2) ∧
      ∀ i q, i < selectBest maxEdgeWeight limits ps → ps[i]? = some q → (Feasible limits q ↔ Feasible limits p) →
        cut2 p / 2 < cut2 q / 2 := by
  have := selectLoop_best limits ps [] ⟨0, maxEdgeWeight, false⟩ (by simp) (by simp) (by simp)
    (fun _ => ⟨rfl, fun p hp => by rw [cut_eq]; exact hcut p hp⟩) (by simpa using hne)
  rw [List.nil_append] at this
  obtain ⟨p, h1, h2, h3, h4⟩ := this
  refine ⟨p, h1, fun q hq hf => (feasible_iff _ _).1 (h2 q hq ((feasible_iff _ _).2 hf)), fun q hq hf => ?_, fun i q hi hq hf => ?_⟩
  · rw [← cut_eq, ← cut_eq]
    exact h3 q hq (feasible_eq _ _ _ hf)
  · rw [← cut_eq, ← cut_eq]
    exact h4 i q hi hq (feasible_eq _ _ _ hf)

-- non-vacuity: all nodes in one block, an infeasible cut, two feasible ones
example :
    let ps : List PG := [⟨path8, 2, fun _ => 1⟩, ⟨path8, 2, fun u => u % 2⟩, ⟨path8, 2, fun u => u / 4⟩, ⟨path8, 2, fun u => 1 - u / 4⟩]
    ps.map (fun p => (isFeasible p [4, 4], edgeCut p)) = [(false, 0), (true, 7), (true, 1), (true, 1)] ∧
    selectBest maxEdgeWeight [4, 4] ps = 2 ∧ selectBest maxEdgeWeight [2, 2] ps = 0 := by decide +kernel

/-- **C59 (selection with the wrong limits).** With asynchronous initial partitioning, the copies are compared with the
limits of the final blocks.  No bipartition respects these, so that the smallest cut wins: the copy with all nodes on
one side, although the other copy respects the limits of two blocks.  With synchronous initial partitioning (same parts,
same input) the balanced copy wins. -/
theorem C59_async_selection_not_feasible :
    (createKway? id (demoInput [2, 2, 2, 2]) (info pairs4) 2).map (fun ctx =>
      (isFeasible ⟨pairs4, 2, demo.bipart [0] pairs4⟩ ctx.maxBw, isFeasible ⟨pairs4, 2, demo.bipart [1] pairs4⟩ ctx.maxBw)) =
        some (true, false) ∧
    (deep? (demoCfg [2, 2, 2, 2] .async true) demo 10 path8).map (fun r => (List.range 8).map r.1.part) =
      some [2, 2, 2, 2, 3, 3, 3, 3] ∧
    (deep? (demoCfg [2, 2, 2, 2] .sync true) demo 10 path8).map (fun r => (List.range 8).map r.1.part) =
      some [0, 0, 1, 1, 2, 2, 3, 3] := by
  refine ⟨?_, ?_, ?_⟩ <;> decide +kernel

/-! ## Direct k-way partitioning -/

/-- **C59 (direct k-way partitioning).** For every graph and every `k ≥ 2`: a partition of the given graph into exactly
`k` blocks, refined with the limits of the caller; no store leaves the memory of the extension. -/
theorem C59_kway {cfg : Cfg} {e : Env} (he : e.Ok) (hk2 : 2 ≤ cfg.k) (hk31 : cfg.k < 2 ^ 31) (hml : cfg.minLevels ≤ 30)
    (hth : 2 ^ cfg.minLevels * cfg.threads ≤ 2 ^ 32) {g : LGraph} (hwf : g.WF) (hp : g.Positive) {fuel : Nat}
    (hf : g.length + 1 ≤ fuel) :
    ∃ r, kway? cfg e fuel g = some r ∧ r.1.g = g ∧ r.1.k = cfg.k ∧ (∀ u, u < g.length → r.1.part u < cfg.k) ∧
      RefinedWith e cfg.input r.1 ∧ (e.MemOk → r.2 = true) := by
  obtain ⟨r, r1, r2, r3, r4, r5, r6⟩ := kway_spec he hk2 hk31 hml hth hwf hp hf
  refine ⟨r, r1, r2, r3, ?_, r5, r6⟩
  intro u hu
  have := r4 u (by rw [r2]; exact hu)
  rw [r3] at this
  exact this

example : (kway? (demoCfg [2, 3, 3] .sync false) demo 9 path8).map (fun r => (r.1.k, (List.range 8).map r.1.part, r.2)) =
    some (3, [0, 0, 1, 1, 2, 2, 2, 2], true) := by decide +kernel

/-! ## Recursive bipartitioning -/

/-- **C59 (recursive bipartitioning).** If `k ≥ 2` is a power of two: a partition of the given graph into exactly `k`
blocks, and no store leaves the memory for the subgraphs; optionally the last step is a refinement with the limits of
the caller. -/
theorem C59_rb {cfg : Cfg} {e : Env} (he : e.Ok) {K : Nat} (hK : cfg.k = 2 ^ K) (hK1 : 1 ≤ K) (hk31 : cfg.k < 2 ^ 31)
    {g : LGraph} (hwf : g.WF) (hp : g.Positive) {fuel depth : Nat} (hf : g.length + 1 ≤ fuel) (hd : K ≤ depth) :
    ∃ r, rb? cfg e fuel depth g = some (some r) ∧ r.1.g = g ∧ r.1.k = cfg.k ∧ (∀ u, u < g.length → r.1.part u < cfg.k) ∧
      r.2 = true ∧ (cfg.rbToplevel = true → RefinedWith e cfg.input r.1) := by
  obtain ⟨r, r1, r2, r3, r4, r5⟩ := rbRec_spec (cfg := cfg) he hK hk31 depth 0 [] g 0 hwf hp hf (by omega) (by omega)
  rw [Nat.sub_zero, ← hK] at r3
  have hpow : cfg.k ≠ 0 ∧ cfg.k &&& (cfg.k - 1) = 0 := by
    rw [hK]
    refine ⟨(Nat.two_pow_pos K).ne', ?_⟩
    rw [Nat.and_two_pow_sub_one_eq_mod, Nat.mod_self]
  refine ⟨(if cfg.rbToplevel then refined e [] r.1 cfg.input else r.1, r.2), ?_, ?_, ?_, ?_, r5, ?_⟩
  · unfold rb?
    rw [if_pos hpow]
    rw [Nat.pow_zero] at r1
    rw [r1]
    rfl
  · dsimp only; split
    · exact r2
    · exact r2
  · dsimp only; split
    · exact r3
    · exact r3
  · intro u hu
    dsimp only
    split
    · have := he.refine [] r.1 cfg.input r4 u (by rw [r2]; exact hu)
      rw [r3] at this
      exact this
    · have := r4 u (by rw [r2]; exact hu)
      rw [r3] at this
      exact this
  · intro ht
    dsimp only
    rw [if_pos ht]
    exact ⟨[], r.1, rfl, rfl, r4, rfl⟩

/-- **C59 (recursive bipartitioning, other numbers of blocks).** An exception is thrown exactly if `k` is not a power
of two. -/
theorem C59_rb_exception (cfg : Cfg) (e : Env) (fuel depth : Nat) (g : LGraph) :
    rb? cfg e fuel depth g = none ↔ ¬ ∃ K, cfg.k = 2 ^ K := by
  have key : (cfg.k ≠ 0 ∧ cfg.k &&& (cfg.k - 1) = 0) ↔ ∃ K, cfg.k = 2 ^ K := by
    constructor
    · rintro ⟨h0, h1⟩
      exact ⟨Nat.log2 cfg.k, (Verif.Math.and_pred_eq_zero_iff h0).1 h1⟩
    · rintro ⟨K, hK⟩
      rw [hK]
      refine ⟨(Nat.two_pow_pos K).ne', ?_⟩
      rw [Nat.and_two_pow_sub_one_eq_mod, Nat.mod_self]
  unfold rb?
  split
  · rename_i h
    exact ⟨fun h0 => absurd h0 (by simp), fun h0 => absurd (key.1 h) h0⟩
  · rename_i h
    exact ⟨fun _ h0 => h (key.2 h0), fun _ => rfl⟩

example : (rb? (demoCfg [2, 2, 2, 2] .sync false) demo 9 2 path8).map (fun r => r.map fun r => (r.1.k, (List.range 8).map r.1.part, r.2)) =
    some (some (4, [0, 0, 1, 1, 2, 2, 3, 3], true)) := by decide +kernel

/-- **C59 (one block).** For `k = 1`, recursive bipartitioning returns two blocks, and deep multilevel partitioning is
undefined (`std::clamp` with an empty range) or, if the graph is small, returns two blocks, too. -/
theorem C59_one_block_not_supported :
    (rb? (demoCfg [8] .sync false) demo 9 1 path8).map (fun r => r.map fun r => (r.1.k, (List.range 8).map r.1.part)) =
      some (some (2, [0, 0, 0, 0, 1, 1, 1, 1])) ∧
    (deep? (demoCfg [8] .sequential true) demo 10 path8).isNone = true ∧
    (deep? { demoCfg [8] .sequential true with limit := 5 } demo 10 path8).map (fun r => r.1.k) = some 2 := by
  refine ⟨?_, ?_, ?_⟩ <;> decide +kernel

end Verif.Multilevel
