import Verif.Dist.KWayLevels

/-!
# Properties of distributed k-way multilevel partitioning
-/

namespace Verif.Dist
open Verif

variable {N k : Nat} {dist : List Nat} {inp : Nat → Input} {g : Nat → DGraph} {Wt : Nat → Int} {limit : Nat → Int} {bal imp : Prop}

/-! ## The parts -/

theorem cut_small (I : PartitionInput N dist inp g Wt) (P : Nat → Nat) : cut dist inp P < 2 ^ 31 := by
  have h := directed_cut (P := P) I.graph.undirected
  have h1 : ((edges dist inp).map fun e => if P e.1 ≠ P e.2.1 then e.2.2 else 0).sum ≤ ((edges dist inp).map (·.2.2)).sum := by
    refine List.sum_le_sum fun e he => ?_
    have := I.graph.edges e he
    split <;> omega
  have h2 : 0 ≤ ((edges dist inp).map fun e => if P e.1 ≠ P e.2.1 then e.2.2 else 0).sum := by
    refine sum_nonneg fun x hx => ?_
    obtain ⟨e, he, rfl⟩ := List.mem_map.1 hx
    have := I.graph.edges e he
    split <;> omega
  have := I.edgeTotal
  omega

theorem copy_blockWeight (I : PartitionInput N dist inp g Wt) {c : Replica} (hc : IsCopy dist inp c) (part : List Nat) (b : Nat) :
    c.blockWeight part b = blockWeight dist Wt (fun v => part.getD v 0) b := by
  unfold Replica.blockWeight blockWeight
  rw [hc.n_eq, Nat.add_sub_cancel]
  refine congrArg _ (List.map_congr_left fun a ha => ?_)
  obtain ⟨p, u, hp, hu, rfl⟩ := owner_split I.graph.world (List.mem_range.1 (List.mem_filter.1 ha).1)
  rw [hc.weight p hp u hu, I.graph.weights p hp u hu]

/-- Initial partitioning. -/
theorem PartitionInput.initial (I : PartitionInput N dist inp g Wt) {run : InitialRun} (hrun : run.Ok N k) :
    ∃ part weights c r, initialPartition? N k run g = some (part, weights) ∧ IsCopy dist inp c ∧ r < N ∧
      Agree dist g Wt k part weights (fun v => (run.partitioner r c).getD v 0) ∧
      (∀ q a, q < N → a < globalN dist → (run.partitioner q c).getD a 0 < k) ∧
      ∀ q, q < N → cut dist inp (fun v => (run.partitioner r c).getD v 0) ≤ cut dist inp fun v => (run.partitioner q c).getD v 0 := by
  have hcuts := cut_small I
  obtain ⟨hp, G, S, hs, he, hw, hv, hew⟩ := I
  subst hp
  have W := G.world
  have hd : (g 0).dist = dist := (W.represents 0 W.some_process).dist_eq
  obtain ⟨c, hc, h1⟩ := C69_copy_partial W S (by omega) (by omega) hv hew (run.orders dist) (hrun.orders dist)
  obtain ⟨cs, h2, h3⟩ := forAll_ok (⟨[], [], [], []⟩ : Replica)
    (f := fun p => replicate? (procs dist) g (run.orders dist) p (run.blocks dist p)) (Q := fun _ r => r = c)
    fun p hp => ⟨c, h1 p hp _ (hrun.blocks dist p hp), rfl⟩
  have hlen : ∀ p, p < procs dist → (run.partitioner p c).length = globalN dist := by
    intro p hp
    rw [(hrun.partitioner p c hp).1, hc.n_eq]; rfl
  have hpc : ∀ p, p < procs dist → run.partitioner p (cs p) = run.partitioner p c := fun p hp => by rw [h3 p hp]
  obtain ⟨r, hr, h4, _, res, h5, h6⟩ := C70_best_partition W G.undirected G.edges (by omega) (by omega) cs
    (fun p hp => by rw [h3 p hp]; exact hc) (fun p => run.partitioner p (cs p)) (fun p hp => by rw [hpc p hp]; exact hlen p hp)
    (run.threads dist) (hrun.threads dist) fun p _ => hcuts _
  obtain ⟨part, h7, h8⟩ := forAll_ok ([] : List Nat)
    (f := distributeBest? (procs dist) g cs (fun p => run.partitioner p (cs p)) (run.threads dist)) (Q := fun p x => x = res p)
    fun p hp => ⟨_, h5 p hp, rfl⟩
  have hk : Knows dist g part fun v => (run.partitioner r c).getD v 0 := by
    intro p hp l v hl
    rw [h8 p hp]
    have := h6 p hp l v hl
    rwa [hpc r hr] at this
  have hin : ∀ q a, q < procs dist → a < globalN dist → (run.partitioner q c).getD a 0 < k := by
    intro q a hq ha
    rw [List.getD_eq_getElem?_getD, List.getElem?_eq_getElem (by rw [hlen q hq]; exact ha)]
    exact (hrun.partitioner q c hq).2 _ (List.getElem_mem _)
  have hbw := C66_block_weights W hk k (fun a ha => hin r a hr ha) Wt G.weights G.nonneg hw (run.splits dist) (hrun.splits dist)
  refine ⟨fun p l => (part p).getD l 0,
    fun _ b => ((List.range k).map (blockWeight dist Wt fun v => (run.partitioner r c).getD v 0)).getD b 0, c, r, ?_, hc, hr, ?_, hin, fun q hq => ?_⟩
  · unfold initialPartition?
    dsimp only
    rw [hd, h2, Option.bind_some, h7, Option.bind_some, hbw, Option.map_some]
  · refine fun p hp => ⟨fun l v hl => ?_, fun b hb => ?_⟩
    · show (part p).getD l 0 = _
      rw [List.getD_eq_getElem?_getD, hk p hp l v hl]
      rfl
    · show ((List.range k).map _).getD b 0 = _
      rw [List.getD_eq_getElem?_getD, List.getElem?_map, List.getElem?_range hb]
      rfl
  · have := h4 q hq
    rwa [hpc r hr, hpc q hq] at this

/-- The distributed label propagation clustering can be used, whatever its threads and messages do. -/
theorem lpClusterer_valid {cfg : GCConfig} {sch : List Nat → Nat → Nat → GCSchedule}
    (hsch : ∀ d t c, c < cfg.chunks → (sch d t c).Ok d cfg c) : ValidClusterer N (lpClusterer N cfg sch) := by
  intro dist inp g Wt I
  have W := I.graph.world
  have hs := I.size
  have ht := W.total_nodes
  obtain ⟨r, C, h1, h2⟩ := C80_can_be_contracted W I.graph.symmetric I.graph.fits (hsch dist) (by omega) (by omega)
  refine ⟨_, C, ?_, h2⟩
  unfold lpClusterer
  rw [(W.represents 0 W.some_process).dist_eq, ← I.processes, h1]
  rfl

/-- The label propagation refiner can be used, whatever its threads and messages do. -/
theorem lpRefiner_sound {cfg : BatchConfig} {sch : List Nat → Nat → Nat → ChunkSchedule}
    (hsch : ∀ d t c, c < cfg.chunks → (sch d t c).Ok d cfg c) :
    SoundRefiner N cfg.k cfg.limit (cfg.ignoreProbabilities = false) False (lpRefiner N cfg sch) := by
  intro dist inp g Wt part weights P I hA hP
  have W := I.graph.world
  obtain ⟨s', P', h1, h2, h3, h4⟩ := C79_refinement I.graph (hsch dist) hA hP
  refine ⟨_, _, P', ?_, h2, h3, h4, False.elim⟩
  unfold lpRefiner
  rw [(W.represents 0 W.some_process).dist_eq, ← I.processes, h1]
  rfl

theorem noopRefiner_sound : SoundRefiner N k limit bal imp noopRefiner :=
  fun _ _ _ _ part weights P _ hA hP => ⟨part, weights, P, rfl, hA, hP, fun _ _ _ => le_max_left _ _, fun _ => le_refl _⟩

theorem SoundRefiner.weaken {bal' imp' : Prop} {r : RefinerFn} (h : SoundRefiner N k limit bal imp r) (hb : bal' → bal) (hi : imp' → imp) :
    SoundRefiner N k limit bal' imp' r := by
  intro dist inp g Wt part weights P I hA hP
  obtain ⟨part', weights', P', h1, h2, h3, h4, h5⟩ := h dist inp g Wt part weights P I hA hP
  exact ⟨part', weights', P', h1, h2, h3, fun h => h4 (hb h), fun h => h5 (hi h)⟩

/-- Sound refiners one after the other. -/
theorem multiRefiner_sound : ∀ {rs : List RefinerFn}, (∀ r, r ∈ rs → SoundRefiner N k limit bal imp r) →
    SoundRefiner N k limit bal imp (multiRefiner rs)
  | [], _ => noopRefiner_sound
  | r :: rs, h => by
    intro dist inp g Wt part weights P I hA hP
    obtain ⟨part1, weights1, P1, h1, h2, h3, h4, h5⟩ := h r List.mem_cons_self dist inp g Wt part weights P I hA hP
    obtain ⟨part', weights', P', a1, a2, a3, a4, a5⟩ := multiRefiner_sound (fun r hr => h r (List.mem_cons_of_mem _ hr)) dist inp g Wt part1
      weights1 P1 I h2 h3
    refine ⟨part', weights', P', ?_, a2, a3, fun hb b hk => ?_, fun hi => le_trans (a5 hi) (h5 hi)⟩
    · unfold multiRefiner
      rw [List.foldlM_cons, h1]
      exact a1
    · have := h4 hb b hk
      have := a4 hb b hk
      omega

/-! ## The partitioner -/

/-- **C81**, distributed k-way multilevel partitioning: if the clusterers find clusterings that all processes know and the refiners keep
partitions consistent, then the partitioner ends with a partition `P` into `k` blocks that all processes know, with the right block weights,
whatever threads and messages do and however many levels there are.

The processes partition the same graph `c`, where `F a` is the node of `c` that contains the node `a` of the input: partitions of `c` have the
cuts and block weights of the partitions of the input that they stand for.  The result comes from the partition of a process `r` whose cut is
the smallest one.  If the refiners respect limits, a block is only heavier than its limit if it was in this partition of `c`, and not heavier
than there; if no refiner makes the cut larger, the cut is not larger than there. -/
theorem C81_kway_multilevel (I : PartitionInput N dist inp g Wt) {cl : Nat → ClustererFn} (hcl : ∀ i, ValidClusterer N (cl i))
    {run : Nat → LevelRun} (hrun : ∀ i, (run i).Ok N) {init : InitialRun} (hinit : init.Ok N k) {refine : Nat → RefinerFn}
    (hr : ∀ i, SoundRefiner N k limit bal imp (refine i)) (threshold fuel : Nat) (hf : globalN dist < fuel) (refineCoarsest : Bool) :
    ∃ part weights P, kwayMultilevel? N k threshold refineCoarsest cl run init refine fuel g = some (part, weights) ∧
      Agree dist g Wt k part weights P ∧ (∀ a, a < globalN dist → P a < k) ∧
      ∃ (cdist : List Nat) (cinp : Nat → Input) (c : Replica) (F : Nat → Nat) (r : Nat), IsCopy cdist cinp c ∧
        (∀ a, a < globalN dist → F a < globalN cdist) ∧ (∀ B, cut cdist cinp B = cut dist inp fun a => B (F a)) ∧
        (∀ B b, c.blockWeight B b = blockWeight dist Wt (fun a => B.getD (F a) 0) b) ∧ r < N ∧
        (∀ q, q < N → cut cdist cinp (fun v => (init.partitioner r c).getD v 0) ≤ cut cdist cinp fun v => (init.partitioner q c).getD v 0) ∧
        (bal → ∀ b, b < k → blockWeight dist Wt P b ≤ max (c.blockWeight (init.partitioner r c) b) (limit b)) ∧
        (imp → cut dist inp P ≤ cut cdist cinp fun v => (init.partitioner r c).getD v 0) := by
  obtain ⟨stack, d, i, h, W, F, a1, T, cI⟩ := Tower.coarsening (threshold := threshold) hcl hrun fuel (Tower.base (N := N) (dist := dist)
    (inp := inp) (g := g) (Wt := Wt)) I hf
  obtain ⟨part0, weights0, c, r, b1, b2, b3, b4, b5, b6⟩ := cI.initial hinit
  have TS := T.spec
  have hcw := copy_blockWeight cI b2
  have key : ∃ part1 weights1 P1, (if refineCoarsest = true then refine stack.length h part0 weights0 else some (part0, weights0)) =
        some (part1, weights1) ∧ Agree d h W k part1 weights1 P1 ∧ (∀ a, a < globalN d → P1 a < k) ∧
      (bal → ∀ b, b < k → blockWeight d W P1 b ≤ max (blockWeight d W (fun v => (init.partitioner r c).getD v 0) b) (limit b)) ∧
      (imp → cut d i P1 ≤ cut d i fun v => (init.partitioner r c).getD v 0) := by
    by_cases hc : refineCoarsest = true
    · rw [if_pos hc]
      exact hr stack.length d i h W part0 weights0 _ cI b4 fun a ha => b5 r a b3 ha
    · rw [if_neg hc]
      exact ⟨part0, weights0, _, rfl, b4, fun a ha => b5 r a b3 ha, fun _ _ _ => le_max_left _ _, fun _ => le_refl _⟩
  obtain ⟨part1, weights1, P1, c1, c2, c3, c4, c5⟩ := key
  obtain ⟨part, weights, P, e1, e2, e3, e4, e5⟩ := T.uncoarsening hr part1 weights1 P1 cI c2 c3
  refine ⟨part, weights, P, ?_, e2, e3, d, i, c, F, r, b2, TS.1, TS.2.1, fun B b => ?_, b3, b6, fun hb b hk => ?_, fun hi => ?_⟩
  · unfold kwayMultilevel?
    rw [a1, Option.bind_some]
    dsimp only
    rw [b1, Option.bind_some]
    dsimp only
    rw [c1, Option.bind_some]
    exact e1
  · rw [hcw, TS.2.2]
  · have h1 := e4 hb b hk
    have h2 := c4 hb b hk
    rw [TS.2.2] at h2
    rw [hcw]
    omega
  · have h1 := e5 hi
    have h2 := c5 hi
    rw [TS.2.1] at h2
    omega

/-- **C81**, with label propagation for clustering and refinement: no assumption about the parts is left, but for the initial partitioner, and
if the partition of the coarsest graph satisfies the limits, so does the result. -/
theorem C81_label_propagation (I : PartitionInput N dist inp g Wt) {gcfg : Nat → GCConfig} {gsch : Nat → List Nat → Nat → Nat → GCSchedule}
    (hg : ∀ i d t c, c < (gcfg i).chunks → (gsch i d t c).Ok d (gcfg i) c) {run : Nat → LevelRun} (hrun : ∀ i, (run i).Ok N)
    {init : InitialRun} {bcfg : BatchConfig} (hinit : init.Ok N bcfg.k) {bsch : Nat → Nat → List Nat → Nat → Nat → ChunkSchedule}
    (hb : ∀ i j d t c, c < bcfg.chunks → (bsch i j d t c).Ok d bcfg c) (rounds threshold fuel : Nat) (hf : globalN dist < fuel)
    (refineCoarsest : Bool) :
    ∃ part weights P, kwayMultilevel? N bcfg.k threshold refineCoarsest (fun i => lpClusterer N (gcfg i) (gsch i)) run init
        (fun i => multiRefiner ((List.range rounds).map fun j => lpRefiner N bcfg (bsch i j))) fuel g = some (part, weights) ∧
      Agree dist g Wt bcfg.k part weights P ∧ (∀ a, a < globalN dist → P a < bcfg.k) ∧
      ∃ (cdist : List Nat) (cinp : Nat → Input) (c : Replica) (F : Nat → Nat) (r : Nat), IsCopy cdist cinp c ∧ r < N ∧
        (∀ a, a < globalN dist → F a < globalN cdist) ∧ (∀ B, cut cdist cinp B = cut dist inp fun a => B (F a)) ∧
        (∀ B b, c.blockWeight B b = blockWeight dist Wt (fun a => B.getD (F a) 0) b) ∧
        (bcfg.ignoreProbabilities = false → (∀ b, b < bcfg.k → c.blockWeight (init.partitioner r c) b ≤ bcfg.limit b) →
          ∀ b, b < bcfg.k → blockWeight dist Wt P b ≤ bcfg.limit b) := by
  obtain ⟨part, weights, P, h1, h2, h3, cdist, cinp, c, F, r, h4, h5, hcut, h6, h7, _, h9, _⟩ := C81_kway_multilevel I
    (fun i => lpClusterer_valid (hg i)) hrun hinit (limit := bcfg.limit) (bal := bcfg.ignoreProbabilities = false) (imp := False)
    (refine := fun i => multiRefiner ((List.range rounds).map fun j => lpRefiner N bcfg (bsch i j)))
    (fun i => multiRefiner_sound fun x hx => by
      obtain ⟨j, _, rfl⟩ := List.mem_map.1 hx
      exact lpRefiner_sound (hb i j)) threshold fuel hf refineCoarsest
  refine ⟨part, weights, P, h1, h2, h3, cdist, cinp, c, F, r, h4, h7, h5, hcut, h6, fun hi h0 b hk => ?_⟩
  have := h9 hi b hk
  have := h0 b hk
  omega

/-! ## Examples -/

/-- A run of the contraction with one thread per process. -/
def plainLevel : LevelRun := ⟨fun _ => orders3, (0, 0), fun d p => ⟨1, (List.range 1).flatMap fun t =>
  (threadIterations 1 0 (localN d p) t).map fun i => (t, i), (List.range 1).flatMap fun t => (threadIterations 1 0 (localN d p) t).map fun i => (t, i)⟩,
  id⟩

theorem plainLevel_ok : plainLevel.Ok N :=
  ⟨fun _ _ => orders3_ok, fun d => (plainSync_ok (fun _ => 0) (localN d)).1, fun l => List.Perm.refl l⟩

/-- Initial partitioning that puts the nodes into blocks 0 and 1 in turn, on process 0 starting with block 0. -/
def plainInit : InitialRun := ⟨fun d p => List.range (localN d p), fun d _ => [(0, globalN d)],
  fun p c => (List.range (c.nodes.length - 1)).map fun a => (a + p) % 2, fun d _ => [List.range (globalN d)], fun d p => [List.range (localN d p)]⟩

theorem plainInit_ok : plainInit.Ok N 2 where
  orders _ _ _ := List.Perm.refl _
  blocks d _ _ := by
    show (([(0, globalN d)] : List (Nat × Nat)).flatMap fun b => List.range' b.1 b.2).Perm _
    rw [List.flatMap_singleton, ← List.range_eq_range']
  threads d _ _ := by
    show ([List.range (globalN d)] : List (List Nat)).flatten.Perm _
    rw [List.flatten_singleton]
  splits d p _ := by
    show ([List.range (localN d p)] : List (List Nat)).flatten.Perm _
    rw [List.flatten_singleton]
  partitioner p c _ := by
    refine ⟨by unfold plainInit; simp, fun b hb => ?_⟩
    obtain ⟨a, _, rfl⟩ := List.mem_map.1 hb
    exact Nat.mod_lt _ (by decide)

/-- The hypotheses of the theorems hold for the star with two isolated nodes on two processes. -/
theorem pair2_partition : PartitionInput 2 [0, 2, 5] pair2 (imported [0, 2, 5] pair2) fun _ => 1 where
  processes := rfl
  graph := pair2_input
  stored := ⟨by decide +kernel, by decide +kernel, by decide +kernel, fun
    | 0, _ => ⟨[], by decide +kernel, fun _ => rfl⟩
    | 1, _ => ⟨[], by decide +kernel, fun _ => rfl⟩⟩
  size := by decide +kernel
  edgeTotal := by decide +kernel
  nodeTotal := by decide +kernel
  nodeWeights := Or.inl (by decide)
  edgeWeights := Or.inl (by decide)

example : (∀ d c, c < 2 → (plainGC d 2 c .exact).Ok d ⟨3, 5, 2, true, true, true, fairShare 3⟩ c) ∧
    (∀ d c, c < 2 → (plainChunk d 2 c .exact).Ok d ⟨2, fun _ => 4, 5, 2, 2, false⟩ c) :=
  ⟨fun _ _ hc => plainGC_ok (cfg := ⟨3, 5, 2, true, true, true, fairShare 3⟩) hc _,
    fun _ _ hc => plainChunk_ok (cfg := ⟨2, fun _ => 4, 5, 2, 2, false⟩) hc (by intro _ _ _ h; cases h)⟩

/-- The partition and the block weights that the processes get. -/
def kwaySummary (dist : List Nat) (g : Nat → DGraph) (r : Option ((Nat → Nat → Nat) × (Nat → Nat → Int))) : Option (List (List Nat) × List (List Int)) :=
  r.map fun r => ((List.range (procs dist)).map fun p => (List.range (g p).totalN).map (r.1 p), (List.range (procs dist)).map fun p => [r.2 p 0, r.2 p 1])

/-- Two processes partition the graph with label propagation: one level is contracted, to two nodes, and the star is not cut. -/
example : (coarsening? 2 2 (fun _ => lpClusterer 2 ⟨3, 5, 2, true, true, true, fairShare 3⟩ fun d _ c => plainGC d 2 c .exact)
      (fun _ => plainLevel) 6 [] (imported [0, 2, 5] pair2)).map (fun r => (r.1.length, (r.2 0).dist)) = some (1, [0, 1, 2]) ∧
    kwaySummary [0, 2, 5] (imported [0, 2, 5] pair2) (kwayMultilevel? 2 2 2 true
      (fun _ => lpClusterer 2 ⟨3, 5, 2, true, true, true, fairShare 3⟩ fun d _ c => plainGC d 2 c .exact) (fun _ => plainLevel) plainInit
      (fun _ => multiRefiner [lpRefiner 2 ⟨2, fun _ => 4, 5, 2, 2, false⟩ fun d _ c => plainChunk d 2 c .exact]) 6 (imported [0, 2, 5] pair2)) =
    some ([[0, 0, 0], [0, 1, 1, 0]], [[3, 2], [3, 2]]) := by
  constructor <;> decide +kernel

end Verif.Dist
