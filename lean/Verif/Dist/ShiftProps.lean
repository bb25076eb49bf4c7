import Verif.Dist.ShiftLabels

/-!
# C74: the redistribution of clusters

If some process would own too many coarse nodes, clusters get new names such that other processes own them.  No cluster is split, no
two clusters are merged, all processes agree on the new names, a process never gets more coarse nodes than it has nodes, and the number
of coarse nodes that each process gives away or gets is as planned.  The contraction then builds the quotient graph of the same
clustering.
-/

namespace Verif.Dist
open Verif.Math

variable {C : Nat → Nat} {dist : List Nat} {inp : Nat → Input} {g : Nat → DGraph} {lab : Nat → List Nat} {S : Nat → Orders}

/-- **C74**, the plan: if there are at least as many coarse nodes as processes and no process has more coarse nodes than nodes, then there
is a plan that all processes compute, in whatever order their sorting algorithms put processes with the same number of coarse nodes.  If
there is room for all coarse nodes, where a process has at most the limit and at most its nodes, the plan obeys the limit.
Missing: fewer coarse nodes than processes, where the code can divide by zero. -/
theorem C74_plan_partial {cdist : List Nat} {L : Limits} (hN : 0 < procs dist) (hp : procs cdist = procs dist) (h0 : first cdist 0 = 0)
    (hm : ∀ q, q < procs dist → first cdist q ≤ first cdist (q + 1)) (hcap : ∀ q, q < procs dist → localN cdist q ≤ localN dist q)
    (havg : procs dist ≤ globalN cdist) (hL : L.Ok dist) : ∃ lim out inc, L.limit ≤ lim ∧
      (globalN cdist ≤ ((List.range (procs dist)).map fun q => min L.limit (localN dist q)).sum → lim = L.limit) ∧ Plan dist cdist lim out inc ∧
      ∀ p, p < procs dist → shifts? L.next (L.sort p) dist cdist L.calls L.limit =
        some (edgeDistribution ((List.range (procs dist)).map out), edgeDistribution ((List.range (procs dist)).map inc)) := by
  have hc := hL.calls 0 hN
  obtain ⟨lim, out, inc, h1, h1', h2, h3⟩ := shifts_ok hN hp h0 (fun q hq => hm q (hp ▸ hq)) hcap hL.grows havg (L.calls - 1) L.limit fun q hq => by
    have h1 := hL.calls q hq
    have h2 := hcap q hq
    omega
  rw [show L.calls - 1 + 1 = L.calls by omega] at h3
  exact ⟨lim, out, inc, h1, h1', h2, fun p hp => h3 _ (hL.sorts p hp)⟩

/-- What the redistribution does, for the proof of the following theorems. -/
theorem Clustered.redistributed (K : Clustered dist inp g lab C) (hS : ∀ p, p < procs dist → (S p).Ok) (hsym : Symmetric dist inp) {L : Limits}
    (hL : L.Ok dist) (first : Bool) (havg : procs dist ≤ globalN (cdistOf dist C)) :
    ∃ lim out inc C' lab', L.limit ≤ lim ∧
      (globalN (cdistOf dist C) ≤ ((List.range (procs dist)).map fun q => min L.limit (localN dist q)).sum → lim = L.limit) ∧ Plan dist (cdistOf dist C) lim out inc ∧ Clustered dist inp g lab' C' ∧
      (∀ a b, a < globalN dist → b < globalN dist → (C' a = C' b ↔ C a = C b)) ∧
      (∀ q, q < procs dist → localN (cdistOf dist C') q = localN (cdistOf dist C) q - out q + inc q) ∧
      ∀ (z : Nat × Nat) (ex : Nat → Execution) (shuffle : List (Nat × Nat) → List (Nat × Nat)), Executions dist (fun _ => 0) (localN dist) ex →
        (∀ l, (shuffle l).Perm l) → ∀ me, me < procs dist → redistribute? S (procs dist) g lab L first z ex shuffle me = some (lab' me) := by
  have W := K.world
  obtain ⟨lim, out, inc, h1, h1', h2, h3⟩ := C74_plan_partial (cdist := cdistOf dist C) W.some_process cdist_procs
    (by rw [cdist_first (Nat.zero_le _), (W.valid 0 W.some_process).zero]; rfl)
    (fun q hq => by rw [cdist_first (by omega), cdist_first (by omega), K.cnode_succ hq]; omega)
    (fun q hq => by rw [K.cdist_local hq]; exact K.cnum_le) havg hL
  have K' := K.new_clustered h2 first
  refine ⟨lim, out, inc, _, _, h1, h1', h2, K', fun a b ha hb => K.new_iff h2 first ha hb, fun q hq => ?_, fun z ex shuffle hex hsh me hme =>
    K.redistribute h2 first hS hsym h3 hex hsh hme⟩
  rw [K'.cdist_local hq, K.new_cnum h2 first hq]

/-- **C74**, the clusters: if the numbers of coarse nodes of the processes are too different and there are at least as many coarse nodes
as processes, each node and ghost node gets a new cluster.  Nodes have the same new cluster if and only if they had the same cluster
before, all processes agree, and each process owns as many coarse nodes as planned.
Missing: fewer coarse nodes than processes, where the code can divide by zero. -/
theorem C74_redistribution_partial (K : Clustered dist inp g lab C) (hS : ∀ p, p < procs dist → (S p).Ok) (hsym : Symmetric dist inp) {L : Limits}
    (hL : L.Ok dist) (first : Bool) {cdist : List Nat} (hd : coarseDist? S (procs dist) g lab = some cdist) (havg : procs dist ≤ globalN cdist) :
    ∃ lim out inc C' lab' cdist', L.limit ≤ lim ∧
      (globalN cdist ≤ ((List.range (procs dist)).map fun q => min L.limit (localN dist q)).sum → lim = L.limit) ∧ Plan dist cdist lim out inc ∧ Clustered dist inp g lab' C' ∧
      (∀ a b, a < globalN dist → b < globalN dist → (C' a = C' b ↔ C a = C b)) ∧
      coarseDist? S (procs dist) g lab' = some cdist' ∧
      (∀ q, q < procs dist → localN cdist' q = localN cdist q - out q + inc q) ∧
      ∀ (z : Nat × Nat) (ex : Nat → Execution) (shuffle : List (Nat × Nat) → List (Nat × Nat)), Executions dist (fun _ => 0) (localN dist) ex →
        (∀ l, (shuffle l).Perm l) → ∀ me, me < procs dist → redistribute? S (procs dist) g lab L first z ex shuffle me = some (lab' me) := by
  rw [K.coarseDist hS] at hd
  injection hd with hd
  subst hd
  obtain ⟨lim, out, inc, C', lab', h1, h1', h2, h3, h4, h5, h6⟩ := K.redistributed hS hsym hL first havg
  exact ⟨lim, out, inc, C', lab', _, h1, h1', h2, h3, h4, h3.coarseDist hS, h5, h6⟩

/-- **C74**, the coarse graph: whether or not clusters are redistributed, the contraction builds the quotient graph of the clustering, and
a partition of the coarse graph is projected to the nodes of the clusters.
Missing: fewer coarse nodes than processes, where the code can divide by zero. -/
theorem C74_contraction_partial (K : Clustered dist inp g lab C) (hS : ∀ p, p < procs dist → (S p).Ok) (Wt : Nat → Int) (hW : HasWeights dist inp Wt)
    (hsym : Symmetric dist inp) {L : Limits} (hL : L.Ok dist) (first : Bool) {cdist : List Nat}
    (hd : coarseDist? S (procs dist) g lab = some cdist) (havg : procs dist ≤ globalN cdist) (exceeds : List Nat → Bool) :
    ∃ lab' cdist' cinp P, Renumbers dist C cdist' P ∧ Quotient dist inp Wt P cdist' cinp ∧ Symmetric cdist' cinp ∧
      (∀ (z : Nat × Nat) (ex : Nat → Execution) (shuffle : List (Nat × Nat) → List (Nat × Nat)), Executions dist (fun _ => 0) (localN dist) ex →
        (∀ l, (shuffle l).Perm l) → ∀ me, me < procs dist → finalLabels? S (procs dist) g lab L first exceeds z ex shuffle me = some (lab' me)) ∧
      ∀ (z : Nat × Int) (ex : Nat → Execution) (shuffle : List (Nat × Int) → List (Nat × Int)),
        Executions cdist' (fun _ => 0) (localN cdist') ex → (∀ l, (shuffle l).Perm l) →
        ∃ cg : Nat → DGraph, (∀ me, me < procs dist → contract? S (procs dist) g lab' z ex shuffle me = some (cg me)) ∧
          World cdist' cinp cg ∧
          (∀ me l v, me < procs dist → (cg me).localToGlobal? l = some v → (cg me).nodeWeight? l = some (blockWeight dist Wt P v)) ∧
          ∀ (cpart : Nat → List Nat) (B : Nat → Nat),
            (∀ q u, q < procs dist → u < localN cdist' q → (cpart q)[u]? = some (B (Verif.Dist.first cdist' q + u))) →
            ∀ me, me < procs dist → ∃ part, project? S (procs dist) g lab' cg cpart me = some part ∧ part.length = (g me).totalN ∧
              ∀ l v, (g me).localToGlobal? l = some v → part[l]? = some (B (P v)) := by
  rw [K.coarseDist hS] at hd
  injection hd with hd
  subst hd
  have key : ∃ C' lab', Clustered dist inp g lab' C' ∧ (∀ a b, a < globalN dist → b < globalN dist → (C' a = C' b ↔ C a = C b)) ∧
      ∀ (z : Nat × Nat) (ex : Nat → Execution) (shuffle : List (Nat × Nat) → List (Nat × Nat)), Executions dist (fun _ => 0) (localN dist) ex →
        (∀ l, (shuffle l).Perm l) → ∀ me, me < procs dist → finalLabels? S (procs dist) g lab L first exceeds z ex shuffle me = some (lab' me) := by
    by_cases he : exceeds (cdistOf dist C) = true
    · obtain ⟨_, _, _, C', lab', _, _, _, h3, h4, _, h6⟩ := K.redistributed hS hsym hL first havg
      refine ⟨C', lab', h3, h4, fun z ex shuffle hex hsh me hme => ?_⟩
      unfold finalLabels?
      rw [K.coarseDist hS, Option.bind_some, if_pos he, h6 z ex shuffle hex hsh me hme]
    · refine ⟨C, lab, K, fun _ _ _ _ => Iff.rfl, fun z ex shuffle hex hsh me hme => ?_⟩
      unfold finalLabels?
      rw [K.coarseDist hS, Option.bind_some, if_neg he]
  obtain ⟨C', lab', K', hC, hfin⟩ := key
  obtain ⟨cdist', cinp, f, hN, hQ, hs, _, h⟩ := C73_contraction K' hS Wt hW hsym
  refine ⟨lab', cdist', cinp, fun a => f (C' a), ⟨hN.procs_eq, hN.range, fun a b ha hb => ?_, hN.surjective⟩, hQ, hs, hfin, fun z ex shuffle hex hsh => ?_⟩
  · rw [← hC a b ha hb]
    exact ⟨hN.injective a b ha hb, fun h => congrArg f h⟩
  · obtain ⟨cg, h1, h2, h3, _, h5⟩ := h z ex shuffle hex hsh
    exact ⟨cg, h1, h2, h3, h5⟩

/-! ## Findings -/

/-- The processes sort by insertion sort, and the limit grows by what is left over. -/
def limits3 (limit : Nat) : Limits := ⟨limit, fun l r => l + r, 20, fun _ _ => List.insertionSort fun a b => a.2 ≤ b.2⟩

theorem sorts3 : Sorts fun _ => List.insertionSort fun a b : Nat × Nat => a.2 ≤ b.2 := by
  intro _ l
  have : Std.Total (fun a b : Nat × Nat => a.2 ≤ b.2) := ⟨fun a b => Nat.le_total _ _⟩
  have : IsTrans (Nat × Nat) (fun a b => a.2 ≤ b.2) := ⟨fun _ _ _ => Nat.le_trans⟩
  exact ⟨List.perm_insertionSort _ l, List.pairwise_insertionSort _ l⟩

theorem limits3_ok {limit : Nat} {dist : List Nat} (h : ∀ q, q < procs dist → localN dist q < 20) : (limits3 limit).Ok dist :=
  ⟨fun _ _ => sorts3, fun l r hr => by show l < l + r; omega, h⟩

/-- **C74**, the limit: the average number of coarse nodes is rounded down.  With 2, 4, 4 and 4 coarse nodes on four processes with ten
nodes each, perfect balance is a limit of 3 although 14 coarse nodes do not fit.  The limit then grows to 4, and no coarse node moves,
although 4, 4, 3 and 3 coarse nodes were possible. -/
theorem C74_perfect_balance_fails :
    shifts? (limits3 3).next ((limits3 3).sort 0) [0, 10, 20, 30, 40] [0, 2, 6, 10, 14] (limits3 3).calls (limits3 3).limit =
      some ([0, 0, 0, 0, 0], [0, 0, 0, 0, 0]) ∧ 14 / 4 = 3 ∧ (limits3 3).Ok [0, 10, 20, 30, 40] :=
  ⟨by decide +kernel, by decide, limits3_ok (by decide)⟩

/-- **C74** needs as many coarse nodes as processes: with two coarse nodes on three processes the average number is 0 and so is the limit,
the two coarse nodes cannot be placed below the largest number 1, and the next limit is a division by zero. -/
theorem C74_division_by_zero : shifts? (limits3 0).next ((limits3 0).sort 0) [0, 5, 10, 15] [0, 1, 2, 2] (limits3 0).calls (limits3 0).limit = none ∧
    (limits3 0).Ok [0, 5, 10, 15] := ⟨by decide +kernel, limits3_ok (by decide)⟩

/-! ## A concrete case -/

/-- The hypotheses hold for the clusters of the example of C73: coarse nodes 0 and 1 belong to process 0, coarse node 2 to process 2. -/
example : ∃ g lab, Clustered dist3 inp3 g lab C3 ∧ HasWeights dist3 inp3 (fun a => [5, 6, 7, 8, 9].getD a 0) ∧ Symmetric dist3 inp3 ∧ orders3.Ok ∧
    (limits3 1).Ok dist3 ∧ coarseDist? (fun _ => orders3) (procs dist3) g lab = some [0, 2, 2, 3] ∧ procs dist3 ≤ globalN [0, 2, 2, 3] := by
  obtain ⟨g, W⟩ := world3
  have K : Clustered dist3 inp3 g (fun p => (List.range (g p).totalN).map fun l => C3 (((g p).localToGlobal? l).getD 0)) C3 := by
    refine ⟨W, by decide, ?_, ?_, by decide⟩
    · intro p _ l v hl
      show ((List.range (g p).totalN).map _)[l]? = _
      rw [List.getElem?_map, List.getElem?_range (lt_total hl), Option.map_some, hl]
      rfl
    · have h : (List.range (procs dist3)).map (fun p => (g p).totalN) =
          (List.range (procs dist3)).map fun p => localN dist3 p + (foreign dist3 p (inp3 p)).length :=
        List.map_congr_left fun p hp => (W.represents p (List.mem_range.1 hp)).total
      rw [h]
      decide
  refine ⟨g, _, K, by unfold HasWeights; decide, symmetric3, orders3_ok, limits3_ok (by decide), ?_, by decide⟩
  rw [K.coarseDist fun _ _ => orders3_ok]
  decide

/-- Process 0 has one coarse node too many, process 1 has no nodes, and process 2 has room for one more. -/
example : shifts? (limits3 1).next ((limits3 1).sort 0) dist3 [0, 2, 2, 3] (limits3 1).calls (limits3 1).limit = some ([0, 1, 1, 1], [0, 0, 0, 1]) := by
  decide +kernel

/-- Either the last cluster of process 0 moves (cluster 1 becomes cluster 4) or the first one (cluster 0 becomes cluster 4). -/
example : (List.range 3).map (redistribute? (fun _ => orders3) 3 g3 lab3 (limits3 1) false (0, 0) ex3 List.reverse) =
    [some [4, 4, 3, 0, 3], some [], some [3, 0, 3, 4]] := by decide +kernel
example : (List.range 3).map (redistribute? (fun _ => orders3) 3 g3 lab3 (limits3 1) true (0, 0) ex3 List.reverse) =
    [some [0, 0, 3, 4, 3], some [], some [3, 4, 3, 0]] := by decide +kernel
example : coarseDist? (fun _ => orders3) 3 g3 (fun p => match p with | 0 => [4, 4, 3, 0, 3] | 1 => [] | _ => [3, 0, 3, 4]) = some [0, 1, 1, 3] := by
  decide +kernel
example : finalLabels? (fun _ => orders3) 3 g3 lab3 (limits3 1) true (fun _ => false) (0, 0) ex3 List.reverse 0 = some (lab3 0) := by decide +kernel

/-- Four processes: eleven coarse nodes of the last one are four too many, two others have one too many, and only the first processes can
take coarse nodes.  The first process has only one node. -/
example : shifts? (limits3 7).next ((limits3 7).sort 0) [0, 1, 13, 25, 40] [0, 1, 3, 11, 22] (limits3 7).calls (limits3 7).limit =
    some ([0, 0, 0, 1, 5], [0, 0, 5, 5, 5]) := by decide +kernel

end Verif.Dist
