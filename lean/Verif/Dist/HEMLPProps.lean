import Verif.Dist.HEMLP
import Verif.Dist.HEMLPSpec
import Verif.Dist.HEMProps
import Verif.Dist.KWayProps

/-!
# C83: heavy edge matching falls back to label propagation if it does not shrink the graph enough
-/

namespace Verif.Dist
open Verif

variable {dist : List Nat} {inp : Nat → Input} {g : Nat → DGraph} {Wt : Nat → Int} {cfg : HEMConfig} {N : Nat} {lab : Nat → List Nat} {C : Nat → Nat}

theorem tile_count (W : World dist inp g) (Q : Nat → Bool) : ∀ k, k ≤ procs dist →
    ((List.range k).map fun p => (List.range (localN dist p)).countP fun u => Q (first dist p + u)).sum = (List.range (first dist k)).countP Q
  | 0, _ => by rw [(W.valid 0 W.some_process).zero]; rfl
  | k + 1, hk => by
    rw [List.range_succ, List.map_append, List.sum_append, tile_count W Q k (by omega), first_succ W (show k < procs dist by omega),
      List.range_add, List.countP_append, List.countP_map]
    simp only [List.map_cons, List.map_nil, List.sum_cons, List.sum_nil, Nat.add_zero]
    rfl

theorem numClusters_fixed (hl : ∀ a, a < globalN dist → C a < globalN dist) (hf : ∀ a, a < globalN dist → C (C a) = C a) :
    numClusters dist C = (List.range (globalN dist)).countP fun a => decide (C a = a) := by
  rw [List.countP_eq_length_filter]
  unfold numClusters
  refine List.Perm.length_eq ((List.perm_ext_iff_of_nodup (List.nodup_dedup _) (List.nodup_range.filter _)).2 fun x => ?_)
  rw [List.mem_dedup, List.mem_map, List.mem_filter, List.mem_range, decide_eq_true_iff]
  constructor
  · rintro ⟨a, ha, rfl⟩
    exact ⟨hl a (List.mem_range.1 ha), hf a (List.mem_range.1 ha)⟩
  · rintro ⟨hx, h⟩
    exact ⟨x, List.mem_range.2 hx, h⟩

/-- The coarse graph has as many nodes as there are clusters. -/
theorem Numbers.count {cdist : List Nat} {f : Nat → Nat} (h : Numbers dist C cdist f) : globalN cdist = numClusters dist C := by
  unfold numClusters
  rw [← List.length_map (f := f), ← List.length_range (n := globalN cdist)]
  refine List.Perm.length_eq ((List.perm_ext_iff_of_nodup List.nodup_range ?_).2 fun x => ?_)
  · refine (List.nodup_map_iff_inj_on (List.nodup_dedup _)).2 fun x hx y hy e => ?_
    obtain ⟨a, ha, rfl⟩ := List.mem_map.1 (List.mem_dedup.1 hx)
    obtain ⟨b, hb, rfl⟩ := List.mem_map.1 (List.mem_dedup.1 hy)
    exact h.injective a b (List.mem_range.1 ha) (List.mem_range.1 hb) e
  · rw [List.mem_range, List.mem_map]
    constructor
    · intro hx
      obtain ⟨a, ha, rfl⟩ := h.surjective x hx
      exact ⟨C a, List.mem_dedup.2 (List.mem_map.2 ⟨a, List.mem_range.2 ha, rfl⟩), rfl⟩
    · rintro ⟨y, hy, rfl⟩
      obtain ⟨a, ha, rfl⟩ := List.mem_map.1 (List.mem_dedup.1 hy)
      exact h.range a (List.mem_range.1 ha)

/-- **C83**, the size: if each cluster has the name of one of its nodes, each process computes the number of clusters. -/
theorem C83_size (K : Clustered dist inp g lab C) (hname : ∀ a, a < globalN dist → C (C a) = C a) {p : Nat} (hp : p < procs dist) :
    sizeAfterMatching? (procs dist) g lab p = some (numClusters dist C) := by
  have W := K.world
  have h1 : (List.range (procs dist)).mapM (fun q => matchedNodes? (g q) (lab q)) = some ((List.range (procs dist)).map fun q =>
      (List.range (localN dist q)).countP fun u => (fun a => decide (C a ≠ a)) (first dist q + u)) := by
    refine mapM_some fun q hq => ?_
    have hq := List.mem_range.1 hq
    have R := W.represents q hq
    unfold matchedNodes?
    rw [R.n_eq, mapM_some (g := fun u => decide (C (first dist q + u) ≠ first dist q + u)) fun u hu => ?_, Option.map_some]
    · rw [List.count, List.countP_map]
      refine congrArg some (List.countP_congr fun u _ => ?_)
      simp
    · have hown := R.own u (List.mem_range.1 hu)
      rw [K.knows q hq u _ hown, Option.bind_some, hown, Option.map_some]
  unfold sizeAfterMatching?
  rw [h1, Option.bind_some, dist_last W hp, Option.map_some, tile_count W (fun a => decide (C a ≠ a)) _ (Nat.le_refl _), numClusters_fixed K.labels hname]
  have h2 := List.length_eq_countP_add_countP (fun a => decide (C a = a)) (l := List.range (globalN dist))
  rw [List.length_range] at h2
  have h3 : (List.range (first dist (procs dist))).countP (fun a => decide (C a ≠ a)) =
      (List.range (globalN dist)).countP fun a => decide ¬ (decide (C a = a)) = true := by
    refine List.countP_congr fun u _ => ?_
    simp
  rw [h3]
  congr 1
  omega

/-- Heavy edge matching on a graph that can be partitioned. -/
theorem hemClusterer_matching (I : PartitionInput N dist inp g Wt) (hW : KnowsWeights dist g Wt) (hne : ∀ p, p < N → 0 < localN dist p)
    {S : Nat} (hS : 0 < S) {csch : Nat → Nat → ColorSchedule} (hc : ∀ t i, i < S → (csch t i).Ok dist S i) {fuel : Nat}
    (hf : 2 * globalN dist + 2 ≤ fuel) {order : Nat → List Nat} (ho : ∀ p, p < N → (order p).Perm (List.range (localN dist p)))
    {sch : ColorOrder → Nat → HEMSchedule} (hsch : ∀ ord c, c < ord.colors → (sch ord c).Ok dist ord c) :
    ∃ lab C, hemClusterer N cfg S csch fuel order sch g = some lab ∧ Clustered dist inp g lab C ∧ IsMatching dist inp Wt cfg C := by
  have W := I.graph.world
  have hs := I.size
  have ht := W.total_nodes
  have hp := I.processes
  subst hp
  obtain ⟨ord, h1, h2⟩ := C82_heavy_edge_matching W I.graph.symmetric (fun a h => by
    obtain ⟨w, hw⟩ := (isEdge_edges W.valid).1 h
    exact I.graph.loopFree _ hw rfl) hW hne (by omega) (by omega) hS csch hc fuel hf order ho
  obtain ⟨lab, C, h3, h4, h5⟩ := h2 cfg (sch ord) (hsch ord)
  refine ⟨lab, C, ?_, h4, h5⟩
  unfold hemClusterer
  rw [h1, Option.bind_some, h3]

/-- **C83**, heavy edge matching with fallback: whatever threads and messages do, all processes take the same branch and end with clusters that
all of them know.  The matching is used if and only if there has been no fallback before and the matching leaves at most 90 percent of the
nodes; label propagation is used otherwise, now and later. -/
theorem C83_hem_lp (I : PartitionInput N dist inp g Wt) (hW : KnowsWeights dist g Wt) (hne : ∀ p, p < N → 0 < localN dist p)
    {S : Nat} (hS : 0 < S) {csch : Nat → Nat → ColorSchedule} (hc : ∀ t i, i < S → (csch t i).Ok dist S i) {fuel : Nat}
    (hf : 2 * globalN dist + 2 ≤ fuel) {order : Nat → List Nat} (ho : ∀ p, p < N → (order p).Perm (List.range (localN dist p)))
    {sch : ColorOrder → Nat → HEMSchedule} (hsch : ∀ ord c, c < ord.colors → (sch ord c).Ok dist ord c)
    {gcfg : GCConfig} {gsch : List Nat → Nat → Nat → GCSchedule} (hg : ∀ d t c, c < gcfg.chunks → (gsch d t c).Ok d gcfg c) (fallback : Bool) :
    ∃ mlab M llab L, hemClusterer N cfg S csch fuel order sch g = some mlab ∧ Clustered dist inp g mlab M ∧ IsMatching dist inp Wt cfg M ∧
      lpClusterer N gcfg gsch g = some llab ∧ Clustered dist inp g llab L ∧
      hemLP? N (hemClusterer N cfg S csch fuel order sch) (lpClusterer N gcfg gsch) fallback g =
        if fallback = false ∧ 10 * numClusters dist M ≤ 9 * globalN dist then some (false, mlab) else some (true, llab) := by
  obtain ⟨mlab, M, h1, h2, h3⟩ := hemClusterer_matching (cfg := cfg) I hW hne hS hc hf ho hsch
  obtain ⟨llab, L, h4, h5⟩ := lpClusterer_valid (N := N) hg dist inp g Wt I
  refine ⟨mlab, M, llab, L, h1, h2, h3, h4, h5, ?_⟩
  unfold hemLP?
  cases fallback with
  | true => rw [if_pos rfl, if_neg (fun h => by cases h.1), h4, Option.map_some]
  | false =>
    have hp := I.processes
    subst hp
    have h0 := I.graph.world.some_process
    rw [if_neg (by decide), h1, Option.bind_some, mapM_some (g := fun _ => decide (9 * globalN dist < 10 * numClusters dist M)) fun p hp => ?_, Option.bind_some]
    · by_cases h : 10 * numClusters dist M ≤ 9 * globalN dist
      · have e : ((List.range (procs dist)).map fun _ => decide (9 * globalN dist < 10 * numClusters dist M)).all (fun b => !b) = true := by
          rw [List.all_eq_true]
          intro b hb
          obtain ⟨_, _, rfl⟩ := List.mem_map.1 hb
          rw [decide_eq_false (by omega)]
          rfl
        rw [if_pos e, if_pos ⟨rfl, h⟩]
      · have e1 : ¬ ((List.range (procs dist)).map fun _ => decide (9 * globalN dist < 10 * numClusters dist M)).all (fun b => !b) = true := by
          rw [List.all_eq_true]
          intro e
          have := e _ (List.mem_map.2 ⟨0, List.mem_range.2 h0, rfl⟩)
          rw [decide_eq_true (by omega)] at this
          exact absurd this (by decide)
        have e2 : ((List.range (procs dist)).map fun _ => decide (9 * globalN dist < 10 * numClusters dist M)).all id = true := by
          rw [List.all_eq_true]
          intro b hb
          obtain ⟨_, _, rfl⟩ := List.mem_map.1 hb
          exact decide_eq_true (by omega)
        rw [if_neg e1, if_pos e2, if_neg fun e => h e.2, h4, Option.map_some]
    · have hp := List.mem_range.1 hp
      unfold fallsBack?
      rw [C83_size h2 h3.name hp, Option.bind_some, dist_last I.graph.world hp, Option.map_some]

/-- **C83**, the coarsening goes on: a level whose clusters are a matching that the clusterer has kept is not discarded. -/
theorem C83_level_accepted (I : PartitionInput N dist inp g Wt) (hW : KnowsWeights dist g Wt) (hne : ∀ p, p < N → 0 < localN dist p)
    {S : Nat} (hS : 0 < S) {csch : Nat → Nat → ColorSchedule} (hc : ∀ t i, i < S → (csch t i).Ok dist S i) {fuel : Nat}
    (hf : 2 * globalN dist + 2 ≤ fuel) {order : Nat → List Nat} (ho : ∀ p, p < N → (order p).Perm (List.range (localN dist p)))
    {sch : ColorOrder → Nat → HEMSchedule} (hsch : ∀ ord c, c < ord.colors → (sch ord c).Ok dist ord c)
    {gcfg : GCConfig} {gsch : List Nat → Nat → Nat → GCSchedule} (hg : ∀ d t c, c < gcfg.chunks → (gsch d t c).Ok d gcfg c)
    {run : LevelRun} (hrun : run.Ok N) (fallback : Bool) :
    ∃ fallback' lab C L cg, hemLP? N (hemClusterer N cfg S csch fuel order sch) (lpClusterer N gcfg gsch) fallback g = some (fallback', lab) ∧
      coarseGraph N (fun g => (hemLP? N (hemClusterer N cfg S csch fuel order sch) (lpClusterer N gcfg gsch) fallback g).map (·.2)) run g =
        some (L, cg) ∧ Clustered dist inp g lab C ∧ globalNodes cg = numClusters dist C ∧
      (fallback' = false → hasConverged (globalNodes g) (globalNodes cg) = false) := by
  obtain ⟨mlab, M, llab, L, _, h2, _, _, h5, h6⟩ := C83_hem_lp (cfg := cfg) I hW hne hS hc hf ho hsch hg fallback
  have hp := I.processes
  subst hp
  have W := I.graph.world
  have hpos : 0 < globalN dist := by
    have := owned_lt W W.some_process (hne 0 W.some_process)
    omega
  have key : ∀ lab C, Clustered dist inp g lab C → ∃ L cg, coarseGraph (procs dist) (fun _ => some lab) run g = some (L, cg) ∧
      globalNodes cg = numClusters dist C := by
    intro lab C K
    obtain ⟨cinp, _, _, _, _, hc⟩ := K.contraction hrun.orders Wt I.graph.weights I.graph.symmetric
    obtain ⟨cg0, a1, a2, _⟩ := hc run.zero (run.ex (cdistOf dist C)) run.shuffle (hrun.ex _) hrun.shuffle
    obtain ⟨cg, b1, b2⟩ := forAll_ok (g 0) (f := contract? run.orders (procs dist) g lab run.zero (run.ex (cdistOf dist C)) run.shuffle)
      (Q := fun p r => r = cg0 p) fun p hp => ⟨_, a1 p hp, rfl⟩
    have cW := a2.congr (r := cg) fun p hp => b2 p ((cdist_procs (dist := dist) (C := C)) ▸ hp)
    refine ⟨⟨g, lab, run.orders⟩, cg, ?_, by rw [cW.global_nodes, K.numbers.count]⟩
    unfold coarseGraph
    rw [Option.bind_some, K.coarseDist hrun.orders, Option.bind_some, b1, Option.map_some]
  have hcoarse : ∀ b lab, hemLP? (procs dist) (hemClusterer (procs dist) cfg S csch fuel order sch) (lpClusterer (procs dist) gcfg gsch) fallback g =
      some (b, lab) → coarseGraph (procs dist) (fun g => (hemLP? (procs dist) (hemClusterer (procs dist) cfg S csch fuel order sch)
        (lpClusterer (procs dist) gcfg gsch) fallback g).map (·.2)) run g = coarseGraph (procs dist) (fun _ => some lab) run g := by
    intro b lab h
    unfold coarseGraph
    dsimp only
    rw [h]
    rfl
  by_cases h : fallback = false ∧ 10 * numClusters dist M ≤ 9 * globalN dist
  · rw [if_pos h] at h6
    obtain ⟨L', cg, k1, k2⟩ := key mlab M h2
    refine ⟨false, mlab, M, L', cg, h6, (hcoarse _ _ h6).trans k1, h2, k2, fun _ => ?_⟩
    rw [k2, W.global_nodes]
    exact decide_eq_false (by omega)
  · rw [if_neg h] at h6
    obtain ⟨L', cg, k1, k2⟩ := key llab L h5
    exact ⟨true, llab, L, L', cg, h6, (hcoarse _ _ h6).trans k1, h5, k2, fun e => by cases e⟩

/-! ## Examples -/

/-- One superstep with one thread per process. -/
def plainColors (dist : List Nat) : Nat → Nat → ColorSchedule :=
  fun _ i => ⟨(plainSync (fun p => Math.lrFrom (localN dist p) 1 i) fun p => Math.lrFrom (localN dist p) 1 (i + 1)).exec, fun _ l => l⟩

theorem plainColors_ok (dist : List Nat) : ∀ t i, i < 1 → (plainColors dist t i).Ok dist 1 i :=
  fun _ _ hi => ⟨fun _ l => List.Perm.refl l, _, _, fun _ _ => Math.localRange_eq (by decide) hi, (plainSync_ok _ _).1⟩

/-- Heavy edge matching on the star with two isolated nodes on two processes. -/
def pairHEM (limit : Int) : ClustererFn :=
  hemClusterer 2 ⟨limit, false⟩ 1 (plainColors [0, 2, 5]) 12 (fun p => List.range (localN [0, 2, 5] p)) fun ord => plainHEM ord fun _ _ => false

def pairLP : ClustererFn := lpClusterer 2 ⟨3, 5, 2, true, true, true, fairShare 3⟩ fun d _ c => plainGC d 2 c .exact

/-- The hypotheses hold for this graph. -/
example : PartitionInput 2 [0, 2, 5] pair2 (imported [0, 2, 5] pair2) (fun _ => 1) ∧
    KnowsWeights [0, 2, 5] (imported [0, 2, 5] pair2) (fun _ => 1) ∧ (∀ p, p < 2 → 0 < localN [0, 2, 5] p) ∧
    (∀ t i, i < 1 → (plainColors [0, 2, 5] t i).Ok [0, 2, 5] 1 i) ∧ 2 * globalN [0, 2, 5] + 2 ≤ 12 ∧
    (∀ ord c, c < ord.colors → (plainHEM ord (fun _ _ => false) c).Ok [0, 2, 5] ord c) ∧
    (∀ d c, c < 2 → (plainGC d 2 c .exact).Ok d ⟨3, 5, 2, true, true, true, fairShare 3⟩ c) ∧ plainLevel.Ok 2 := by
  have hw : ∀ p, p < 2 → (imported [0, 2, 5] pair2 p).nodeWeights = [] := by decide +kernel
  refine ⟨pair2_partition, fun p hp l v _ => ?_, by decide, plainColors_ok _, by decide, fun ord c _ => plainHEM_ok ord _ c,
    fun _ _ hc => plainGC_ok (cfg := ⟨3, 5, 2, true, true, true, fairShare 3⟩) hc _, plainLevel_ok⟩
  unfold DGraph.nodeWeight?
  rw [if_pos (hw p hp)]

/-- The state and the clusters afterwards. -/
def hemLPSummary (N : Nat) (r : Option (Bool × (Nat → List Nat))) : Option (Bool × List (List Nat)) := r.map fun r => (r.1, (List.range N).map r.2)

/-- Nodes 0 and 2 are matched: four of five nodes are left, and the matching is used. -/
example : hemLPSummary 2 (hemLP? 2 (pairHEM 2) pairLP false (imported [0, 2, 5] pair2)) = some (false, [[2, 1, 2], [2, 3, 4, 2]]) := by decide +kernel

/-- If no two nodes may be matched, label propagation is used, and the same holds once it has been used. -/
example : hemLPSummary 2 (hemLP? 2 (pairHEM 1) pairLP false (imported [0, 2, 5] pair2)) = some (true, [[1, 1, 1], [1, 3, 3, 1]]) ∧
    hemLPSummary 2 (hemLP? 2 (pairHEM 2) pairLP true (imported [0, 2, 5] pair2)) = some (true, [[1, 1, 1], [1, 3, 3, 1]]) := by
  constructor <;> decide +kernel

/-- Three of five nodes are left by a clustering that is not a matching, and the processes compute this number. -/
example : (List.range 2).map (sizeAfterMatching? 2 (imported [0, 2, 5] pair2) fun p => if p = 0 then [1, 1, 1] else [1, 3, 4, 1]) = [some 3, some 3] := by
  decide +kernel

end Verif.Dist
