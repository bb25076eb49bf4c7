import Verif.Dist.GlobalLPWeight
import Verif.Dist.ContractProps
import Verif.Dist.DistributeProps

/-!
# Properties of the distributed label propagation clustering
-/

namespace Verif.Dist
open Verif Verif.Math

variable {dist : List Nat} {inp : Nat → Input} {g : Nat → DGraph} {C : Nat → Nat} {Wt : Nat → Int} {cfg : GCConfig}

/-- All processes know the clustering `C`: the clusters of their nodes and of their ghost nodes. -/
def SameClusters (dist : List Nat) (g : Nat → DGraph) (r : Nat → GCState) (C : Nat → Nat) : Prop :=
  ∀ p, p < procs dist → ∀ l v, (g p).localToGlobal? l = some v → (r p).cluster l = C v

/-- **C80**, the distributed label propagation clustering: whatever nodes are visited in whatever order, whatever clusters and weights threads
read while other threads change them, however the weight of a cluster that is too heavy is divided and in whatever order messages arrive, the
clustering ends and never reads the weight of an unknown cluster; afterwards all processes know the same clustering `C`, and each cluster is
named by a node of the graph. -/
theorem C80_clustering (W : World dist inp g) (hsym : Symmetric dist inp) (hfit : SmallDegrees dist inp) {sch : Nat → Nat → GCSchedule}
    (hsch : ∀ t c, c < cfg.chunks → (sch t c).Ok dist cfg c) :
    ∃ r C, globalLP? (procs dist) cfg g sch = some r ∧ SameClusters dist g r C ∧ ∀ a, a < globalN dist → C a < globalN dist := by
  obtain ⟨r, C, h1, h2⟩ := W.gc_iterations hsym hfit hsch cfg.iterations 0 _ _ fun p hp => W.gc_start hp
  refine ⟨r, C, h1, fun p hp l v hl => (h2 p hp).same l v hl fun _ => (h2 p hp).start.1 l, fun a ha => ?_⟩
  obtain ⟨p, u, hp, hu, rfl⟩ := owner_split W ha
  have hown := (W.represents p hp).own u hu
  rw [← (h2 p hp).same u _ hown fun _ => (h2 p hp).start.1 u]
  exact ((h2 p hp).known u _ hown).1

/-- **C80**, the clustering is as the contraction expects it (C73). -/
theorem C80_can_be_contracted (W : World dist inp g) (hsym : Symmetric dist inp) (hfit : SmallDegrees dist inp) {sch : Nat → Nat → GCSchedule}
    (hsch : ∀ t c, c < cfg.chunks → (sch t c).Ok dist cfg c) (hn : ((List.range (procs dist)).map fun p => (g p).totalN).sum < 2 ^ 31)
    (hm : globalM dist inp < 2 ^ 31) :
    ∃ r C, globalLP? (procs dist) cfg g sch = some r ∧
      Clustered dist inp g (fun p => (List.range (g p).totalN).map (r p).cluster) C := by
  obtain ⟨r, C, h1, h2, h3⟩ := C80_clustering W hsym hfit hsch
  refine ⟨r, C, h1, W, h3, fun p hp l v hl => ?_, hn, hm⟩
  rw [List.getElem?_map, List.getElem?_range (lt_total hl), Option.map_some, h2 p hp l v hl]

/-- **C80**, one process with one thread: no cluster is heavier than the limit unless it has been named by a node that is, and then it is not
heavier than this node. -/
theorem C80_one_thread (I : LPInput dist inp g Wt) {sch : Nat → Nat → GCSchedule} (hsch : ∀ t c, c < cfg.chunks → (sch t c).Ok dist cfg c)
    (h1 : procs dist = 1) (hx : ∀ t c, c < cfg.chunks → (sch t c).Exact) (hl : 0 ≤ cfg.limit) :
    ∃ r C, globalLP? (procs dist) cfg g sch = some r ∧ SameClusters dist g r C ∧ (∀ a, a < globalN dist → C a < globalN dist) ∧
      ∀ c, c < globalN dist → blockWeight dist Wt C c ≤ max cfg.limit (Wt c) := by
  have W := I.world
  obtain ⟨r, C, h2, h3, h4⟩ := I.track_iterations h1 hsch hx cfg.iterations 0 (fun a => a) (fun p => gcStart (g p)) (fun p hp => W.gc_start hp)
    (W.track_start I.weights h1)
  have hsame : ∀ p, p < procs dist → ∀ l v, (g p).localToGlobal? l = some v → (r p).cluster l = C v :=
    fun p hp l v hl => (h3 p hp).same l v hl fun _ => (h3 p hp).start.1 l
  obtain ⟨hf, hN⟩ := W.single h1
  have hat : ∀ a, a < globalN dist → (r 0).cluster a = C a := by
    intro a ha
    have hown := (W.represents 0 W.some_process).own a (by omega)
    rw [hf, Nat.zero_add] at hown
    exact hsame 0 W.some_process a a hown
  refine ⟨r, C, h2, hsame, fun a ha => ?_, fun c hc => ?_⟩
  · rw [← hat a ha]
    exact ((h3 0 W.some_process).known a _ ((W.represents 0 W.some_process).own a (by omega))).1
  · obtain ⟨x, _, a2, a3⟩ := h4 c hc
    rw [weight_congr hat] at a2
    have := narrow_le hl
    unfold GCConfig.bound at a3
    omega

/-- A schedule in which each process visits all nodes of its chunk, the last one first, and looks at all its nodes to find isolated ones. -/
def plainGC (dist : List Nat) (chunks c : Nat) (reads : GCReads) : GCSchedule :=
  ⟨fun p => (List.range' (lrFrom (localN dist p) chunks c) (lrFrom (localN dist p) chunks (c + 1) - lrFrom (localN dist p) chunks c)).reverse.map
      fun u => ⟨u, fun _ => true, fun l => l, fun _ => false, reads⟩, fun _ _ => none,
    plainSync (fun p => lrFrom (localN dist p) chunks c) (fun p => lrFrom (localN dist p) chunks (c + 1)),
    fun p => (List.range (localN dist p)).map fun u => ⟨0, u, none, none⟩⟩

theorem plainGC_ok {c : Nat} (hc : c < cfg.chunks) (reads : GCReads) : (plainGC dist cfg.chunks c reads).Ok dist cfg c := by
  refine ⟨⟨_, _, fun p _ => localRange_eq (by omega) hc, fun p _ v hv => ?_, plainSync_ok _ _⟩, fun p _ e he => ?_⟩
  · obtain ⟨u, hu, rfl⟩ := List.mem_map.1 hv
    have := List.mem_range'_1.1 (List.mem_reverse.1 hu)
    exact ⟨this.1, by show u < _; omega, fun l => List.Perm.refl l⟩
  · obtain ⟨u, hu, rfl⟩ := List.mem_map.1 he
    exact List.mem_range.1 hu

theorem plainGC_exact (chunks c : Nat) : (plainGC dist chunks c .exact).Exact := by
  refine ⟨fun p v hv => ?_, fun p e he => ?_⟩
  · obtain ⟨u, hu, rfl⟩ := List.mem_map.1 hv
    rfl
  · obtain ⟨u, hu, rfl⟩ := List.mem_map.1 he
    exact ⟨rfl, rfl, Or.inl rfl⟩

/-- How the weight of a cluster that is too heavy is divided by default, for nonnegative numbers that are represented exactly. -/
def fairShare (bound me others new : Int) : Int := bound + me * (new - bound) / (others + me)

/-- A star with centre 0; node 1 is on the same process, node 2 on another one.  Process 1 also has the isolated nodes 3 and 4. -/
def pair2 : Nat → Input := fun p => if p = 0 then ⟨[0, 2, 3], [1, 2, 0], [], []⟩ else ⟨[0, 1, 1, 1], [0], [], []⟩

theorem pair2_input : LPInput [0, 2, 5] pair2 (imported [0, 2, 5] pair2) fun _ => 1 where
  world := world_imported (by decide)
    (fun
      | 0, _ => ⟨by decide, by decide, by decide, by decide, by decide, by decide, by decide, by decide, by decide, by decide, by decide⟩
      | 1, _ => ⟨by decide, by decide, by decide, by decide, by decide, by decide, by decide, by decide, by decide, by decide, by decide⟩)
    (fun
      | 0, _ => ⟨by decide, by decide, fun w hw => by
          have : w ∈ ([] : List Int) ∨ w ∈ ([] : List Int) := hw
          simp at this, by decide⟩
      | 1, _ => ⟨by decide, by decide, fun w hw => by
          have : w ∈ ([] : List Int) ∨ w ∈ ([] : List Int) := hw
          simp at this, by decide⟩)
  undirected := by unfold Undirected; decide
  loopFree := by unfold LoopFree; decide
  fits := by unfold SmallDegrees; decide
  edges := by unfold NonnegEdges; decide
  weights := by unfold HasWeights; decide
  nonneg := by decide

/-- The clusters of all nodes, and the weight of cluster 0 on each process. -/
def clusters (dist : List Nat) (r : Option (Nat → GCState)) : Option (List Nat × List (Option Int)) :=
  r.map fun r => ((List.range (procs dist)).flatMap fun p => (List.range (localN dist p)).map (r p).cluster,
    (List.range (procs dist)).map fun p => (r p).weight 0)

/-- The hypotheses of the theorems hold for these graphs. -/
example : LPInput [0, 2, 5] pair2 (imported [0, 2, 5] pair2) (fun _ => 1) ∧
    (∀ t c, c < 2 → ((fun _ c => plainGC [0, 2, 5] 2 c .exact : Nat → Nat → GCSchedule) t c).Ok [0, 2, 5] ⟨3, 5, 2, true, true, true, fairShare 3⟩ c) ∧
    ((List.range (procs [0, 2, 5])).map fun p => (imported [0, 2, 5] pair2 p).totalN).sum < 2 ^ 31 ∧ globalM [0, 2, 5] pair2 < 2 ^ 31 :=
  ⟨pair2_input, fun _ c hc => plainGC_ok (cfg := ⟨3, 5, 2, true, true, true, fairShare 3⟩) hc _, by decide +kernel, by decide +kernel⟩

example : LPInput [0, 3] heavy1 (imported [0, 3] heavy1) heavyWeight ∧ procs [0, 3] = 1 ∧
    ∀ t c, c < 2 → ((fun _ c => plainGC [0, 3] 2 c .exact : Nat → Nat → GCSchedule) t c).Ok [0, 3] ⟨4, 5, 2, true, true, true, fairShare 4⟩ c ∧
      ((fun _ c => plainGC [0, 3] 2 c .exact : Nat → Nat → GCSchedule) t c).Exact :=
  ⟨heavy1_input, rfl, fun _ c hc => ⟨plainGC_ok (cfg := ⟨4, 5, 2, true, true, true, fairShare 4⟩) hc _, plainGC_exact _ _⟩⟩

/-- The clusters of the star are merged, and so are the isolated nodes. -/
example : clusters [0, 2, 5] (globalLP? 2 ⟨3, 5, 2, true, true, true, fairShare 3⟩ (imported [0, 2, 5] pair2)
    fun _ c => plainGC [0, 2, 5] 2 c .exact) = some ([1, 1, 1, 3, 3], [some 0, some 1]) := by decide +kernel

/-- One process with one thread: the second leaf of weight 2 does not fit. -/
example : clusters [0, 3] (globalLP? 1 ⟨4, 5, 2, true, true, true, fairShare 4⟩ (imported [0, 3] heavy1) fun _ c => plainGC [0, 3] 2 c .exact) =
    some ([0, 2, 0], [some 3]) := by decide +kernel

/-- What the result of a run says about the clusters of the nodes. -/
theorem clusters_same (W : World dist inp g) (hsym : Symmetric dist inp) (hfit : SmallDegrees dist inp) {sch : Nat → Nat → GCSchedule}
    (hsch : ∀ t c, c < cfg.chunks → (sch t c).Ok dist cfg c) {r : Nat → GCState} (h : globalLP? (procs dist) cfg g sch = some r) :
    SameClusters dist g r (glue dist fun p => (r p).cluster) := by
  obtain ⟨r', C, h1, h2, _⟩ := C80_clustering W hsym hfit hsch
  rw [h] at h1
  injection h1 with h1
  subst h1
  intro p hp l v hl
  rw [h2 p hp l v hl]
  have hv : v < globalN dist := by
    rcases (W.node hp hl).2 with ⟨_, _, _, h⟩ | ⟨_, _, _, q, _, h, _⟩
    · exact W.lt_global h.lt (((W.valid p hp).owns_iff' h.lt).1 h).2
    · exact W.lt_global h.lt (((W.valid p hp).owns_iff' h.lt).1 h).2
  obtain ⟨q, u, hq, hu, rfl⟩ := owner_split W hv
  rw [W.glue_at _ hq hu]
  exact (h2 q hq u _ ((W.represents q hq).own u hu)).symm

/-- **C80**, the limit is not kept on more than one process, although the weights of clusters are exchanged and the limit is enforced, and
each process has only one thread: a process that adds weight to a cluster of its own, which another process makes too heavy at the same time, is
not told, and the other process keeps its nodes if its share of the excess is less than 1. -/
theorem C80_overload : ∃ (dist : List Nat) (inp : Nat → Input) (g : Nat → DGraph) (Wt : Nat → Int) (cfg : GCConfig)
    (sch : Nat → Nat → GCSchedule) (r : Nat → GCState) (C : Nat → Nat), LPInput dist inp g Wt ∧ cfg.sync = true ∧ cfg.enforce = true ∧
      (∀ me others new, cfg.share me others new = fairShare cfg.limit me others new) ∧ (∀ t c, c < cfg.chunks → (sch t c).Ok dist cfg c) ∧
      (∀ t c, c < cfg.chunks → (sch t c).Exact) ∧ (∀ a, a < globalN dist → Wt a ≤ cfg.limit) ∧
      globalLP? (procs dist) cfg g sch = some r ∧ SameClusters dist g r C ∧ cfg.limit < blockWeight dist Wt C 0 := by
  have h : (globalLP? 2 ⟨2, 5, 1, true, true, true, fairShare 2⟩ (imported [0, 2, 5] pair2) fun _ c => plainGC [0, 2, 5] 1 c .exact).map
      (fun r => blockWeight [0, 2, 5] (fun _ => 1) (glue [0, 2, 5] fun p => (r p).cluster) 0) = some 3 := by
    decide +kernel
  obtain ⟨r, h1, h2⟩ := Option.map_eq_some_iff.1 h
  have hok : ∀ t c, c < 1 → ((fun _ c => plainGC [0, 2, 5] 1 c .exact : Nat → Nat → GCSchedule) t c).Ok [0, 2, 5]
      ⟨2, 5, 1, true, true, true, fairShare 2⟩ c := fun _ c hc => plainGC_ok (cfg := ⟨2, 5, 1, true, true, true, fairShare 2⟩) hc _
  exact ⟨[0, 2, 5], pair2, imported [0, 2, 5] pair2, fun _ => 1, ⟨2, 5, 1, true, true, true, fairShare 2⟩, fun _ c => plainGC [0, 2, 5] 1 c .exact, r,
    _, pair2_input, rfl, rfl, fun _ _ _ => rfl, hok, fun _ c _ => plainGC_exact _ _, by decide,
    h1, clusters_same pair2_input.world pair2_input.symmetric pair2_input.fits hok h1, by rw [h2]; decide⟩

/-- **C80**, two threads of one process may overload a cluster: both check its weight before one of them changes it. -/
theorem C80_two_threads_overload : ∃ (dist : List Nat) (inp : Nat → Input) (g : Nat → DGraph) (Wt : Nat → Int) (cfg : GCConfig)
    (sch : Nat → Nat → GCSchedule) (r : Nat → GCState) (C : Nat → Nat), LPInput dist inp g Wt ∧ procs dist = 1 ∧ cfg.sync = true ∧
      cfg.enforce = true ∧ (∀ t c, c < cfg.chunks → (sch t c).Ok dist cfg c) ∧ (∀ a, a < globalN dist → Wt a ≤ cfg.limit) ∧
      globalLP? (procs dist) cfg g sch = some r ∧ SameClusters dist g r C ∧ cfg.limit < blockWeight dist Wt C 2 := by
  let sch : Nat → Nat → GCSchedule := fun _ c => { plainGC [0, 3] 1 c .exact with visits := fun _ =>
    [⟨0, fun _ => true, fun l => l, fun _ => false, .exact⟩, ⟨1, fun _ => true, fun l => l, fun _ => false, .stale (fun _ => true) (fun _ => 1) 1⟩] }
  have h : (globalLP? 1 ⟨4, 1, 1, true, true, true, fairShare 4⟩ (imported [0, 3] heavy1) sch).map
      (fun r => blockWeight [0, 3] heavyWeight (glue [0, 3] fun p => (r p).cluster) 2) = some 5 := by
    decide +kernel
  obtain ⟨r, h1, h2⟩ := Option.map_eq_some_iff.1 h
  have hok : ∀ t c, c < 1 → (sch t c).Ok [0, 3] ⟨4, 1, 1, true, true, true, fairShare 4⟩ c := by
    intro t c hc
    have hc0 : c = 0 := by omega
    subst hc0
    have key := plainGC_ok (dist := [0, 3]) (cfg := ⟨4, 1, 1, true, true, true, fairShare 4⟩) hc .exact
    refine ⟨⟨_, _, fun p _ => localRange_eq (by decide) hc, fun p hp v hv => ?_, plainSync_ok _ _⟩, key.events⟩
    have hp0 : p = 0 := by have : p < 1 := hp; omega
    subst hp0
    have hv : v ∈ [_, _] := hv
    rcases List.mem_cons.1 hv with rfl | hv
    · exact ⟨by decide, by decide, fun l => List.Perm.refl l⟩
    · rcases List.mem_cons.1 hv with rfl | hv
      · exact ⟨by decide, by decide, fun l => List.Perm.refl l⟩
      · exact absurd hv List.not_mem_nil
  exact ⟨[0, 3], heavy1, imported [0, 3] heavy1, heavyWeight, ⟨4, 1, 1, true, true, true, fairShare 4⟩, sch, r,
    _, heavy1_input, rfl, rfl, rfl, hok, by decide,
    h1, clusters_same heavy1_input.world heavy1_input.symmetric heavy1_input.fits hok h1, by rw [h2]; decide⟩

/-- **C80**, the owner of a cluster counts the weight of a node of another process twice: after one iteration it believes that a cluster of
weight 3 has weight 4. -/
theorem C80_owner_counts_twice : ∃ (dist : List Nat) (inp : Nat → Input) (g : Nat → DGraph) (Wt : Nat → Int) (cfg : GCConfig)
    (sch : Nat → Nat → GCSchedule) (r : Nat → GCState) (C : Nat → Nat) (x : Int), LPInput dist inp g Wt ∧ cfg.sync = true ∧ cfg.enforce = true ∧
      (∀ t c, c < cfg.chunks → (sch t c).Ok dist cfg c) ∧ (∀ t c, c < cfg.chunks → (sch t c).Exact) ∧
      globalLP? (procs dist) cfg g sch = some r ∧ SameClusters dist g r C ∧ (g 0).isOwnedGlobal? 0 = some true ∧ (r 0).weight 0 = some x ∧
      blockWeight dist Wt C 0 < x ∧ x ≤ cfg.limit := by
  have h : (globalLP? 2 ⟨9, 5, 1, true, true, true, fairShare 9⟩ (imported [0, 2, 5] pair2) fun _ c => plainGC [0, 2, 5] 1 c .exact).map
      (fun r => (blockWeight [0, 2, 5] (fun _ => 1) (glue [0, 2, 5] fun p => (r p).cluster) 0, (r 0).weight 0)) = some (3, some 4) := by
    decide +kernel
  obtain ⟨r, h1, h2⟩ := Option.map_eq_some_iff.1 h
  injection h2 with h2 h3
  have hok : ∀ t c, c < 1 → ((fun _ c => plainGC [0, 2, 5] 1 c .exact : Nat → Nat → GCSchedule) t c).Ok [0, 2, 5]
      ⟨9, 5, 1, true, true, true, fairShare 9⟩ c := fun _ c hc => plainGC_ok (cfg := ⟨9, 5, 1, true, true, true, fairShare 9⟩) hc _
  exact ⟨[0, 2, 5], pair2, imported [0, 2, 5] pair2, fun _ => 1, ⟨9, 5, 1, true, true, true, fairShare 9⟩, fun _ c => plainGC [0, 2, 5] 1 c .exact, r,
    _, 4, pair2_input, rfl, rfl, hok, fun _ c _ => plainGC_exact _ _,
    h1, clusters_same pair2_input.world pair2_input.symmetric pair2_input.fits hok h1, by decide +kernel, h3, by rw [h2]; decide, by decide⟩

/-- **C80**, the limit is stored in 32 bits: with a limit of `2 ^ 31`, far above the weight of all nodes together, no node joins another one. -/
theorem C80_limit_truncated : ∃ (dist : List Nat) (inp : Nat → Input) (g : Nat → DGraph) (Wt : Nat → Int) (cfg : GCConfig)
    (sch : Nat → Nat → GCSchedule) (r : Nat → GCState), LPInput dist inp g Wt ∧ cfg.limit = 2 ^ 31 ∧ cfg.bound < 0 ∧
      (∀ t c, c < cfg.chunks → (sch t c).Ok dist cfg c) ∧ 0 < cfg.iterations ∧ ((List.range (globalN dist)).map Wt).sum < cfg.limit ∧
      (∃ a b, (a, b, 1) ∈ edges dist inp ∧ a ≠ b) ∧ globalLP? (procs dist) cfg g sch = some r ∧ SameClusters dist g r fun a => a := by
  have h : (globalLP? 2 ⟨2 ^ 31, 5, 1, true, true, true, fairShare 9⟩ (imported [0, 2, 5] pair2) fun _ c => plainGC [0, 2, 5] 1 c .exact).map
      (fun r => (List.range 5).all fun a => glue [0, 2, 5] (fun p => (r p).cluster) a == a) = some true := by
    decide +kernel
  obtain ⟨r, h1, h2⟩ := Option.map_eq_some_iff.1 h
  have h2 : ∀ v, v < 5 → glue [0, 2, 5] (fun p => (r p).cluster) v = v := fun v hv =>
    eq_of_beq (List.all_eq_true.1 h2 v (List.mem_range.2 hv))
  have hok : ∀ t c, c < 1 → ((fun _ c => plainGC [0, 2, 5] 1 c .exact : Nat → Nat → GCSchedule) t c).Ok [0, 2, 5]
      ⟨2 ^ 31, 5, 1, true, true, true, fairShare 9⟩ c := fun _ c hc => plainGC_ok (cfg := ⟨2 ^ 31, 5, 1, true, true, true, fairShare 9⟩) hc _
  have W := pair2_input.world
  refine ⟨[0, 2, 5], pair2, imported [0, 2, 5] pair2, fun _ => 1, ⟨2 ^ 31, 5, 1, true, true, true, fairShare 9⟩,
    fun _ c => plainGC [0, 2, 5] 1 c .exact, r, pair2_input, rfl, by decide, hok, by decide, by decide,
    ⟨0, 1, by decide, by decide⟩, h1, fun p hp l v hl => ?_⟩
  rw [clusters_same W pair2_input.symmetric pair2_input.fits hok h1 p hp l v hl]
  refine h2 v ?_
  rcases (W.node hp hl).2 with ⟨_, _, _, h⟩ | ⟨_, _, _, q, _, h, _⟩
  · exact W.lt_global h.lt (((W.valid p hp).owns_iff' h.lt).1 h).2
  · exact W.lt_global h.lt (((W.valid p hp).owns_iff' h.lt).1 h).2

end Verif.Dist
