import Verif.LP.ChunksLemmas
import Verif.CsrGraph.Props

/-!
# C71: a round of label propagation visits every node once

A round works on the nodes `[fr, ub)` of a graph with `n` nodes and the degrees `deg`.  `B` is the array of first nodes of the degree
buckets, `T` the number of tasks that make chunks, `s` the number of nodes that a task claims at once, `S` the number of edges of a
chunk, `P` the size of the random permutations.  The schedule of the tasks, the threads and all random choices are arbitrary.
-/

namespace Verif.LP
open Verif.Math Verif.CsrGraph

/-- All iterations have ended. -/
def Round.Complete (st : Round) (numChunks : Nat) : Prop := ∀ i, i < numChunks → st.queue i = some []

theorem flatMap_getD {α : Type} (f : Chunk → List α) : ∀ (l : List Chunk),
    (List.range l.length).flatMap (fun i => f (l.getD i (0, 0))) = l.flatMap f
  | [] => rfl
  | c :: l => by
    rw [List.length_cons, List.range_succ_eq_map, List.flatMap_cons, List.flatMap_cons, List.flatMap_map]
    exact congrArg (f c ++ ·) (flatMap_getD f l)

theorem maxBucket_eq {maxDegree numBuckets l : Nat} (h1 : 2 ^ l ≤ maxDegree) (h2 : maxDegree < 2 ^ (l + 1)) (h3 : maxDegree < 2 ^ 32) :
    maxBucket? maxDegree numBuckets = some (min l numBuckets) := by
  have hpos := Nat.two_pow_pos l
  unfold maxBucket?
  rw [floorLog2_eq (by omega) h3]
  have : Nat.log2 maxDegree = l := (Nat.log2_eq_iff (by omega)).2 ⟨h1, h2⟩
  rw [this]
  rfl

/-- What a round visits, in terms of the first nodes of the buckets. -/
theorem round_ok {deg B : Nat → Nat} {n numBuckets maxDegree S s T P fr ub nb : Nat} {chunks : List Chunk} {sched : List (Nat × Bool)}
    {st : Round} (hB0 : B 0 = 0) (hB : ∀ b, B b ≤ B (b + 1)) (hs : 0 < s) (hT : 0 < T) (hP : 0 < P) (hb1 : n + s * T ≤ 2 ^ 32)
    (hb2 : n + P ≤ 2 ^ 32) (hf : fr ≤ ub) (hn : fr ≤ n) (hnb : maxBucket? maxDegree numBuckets = some nb)
    (h : IsRound deg B n numBuckets maxDegree S s T P fr ub chunks sched st) :
    st.log.Nodup ∧ (∀ u ∈ st.log, fr ≤ u ∧ u < ub ∧ u < n ∧ u < B nb ∧ deg u < maxDegree) ∧
    (st.Complete chunks.length → sched.all (·.2) = true → ∀ u, fr ≤ u → u < ub → u < n → u < B nb → 0 < deg u → deg u < maxDegree →
      u ∈ st.log) := by
  obtain ⟨⟨nb', ls, e1, e2, hls⟩, hx, perm, subs, hperm, hst⟩ := h
  rw [hnb] at e1
  cases e1
  obtain ⟨hr1, hr2⟩ := bucketRanges_ok (B := B) (fr := fr) (ub := min ub n) (by omega) hB nb 0
  rw [hB0, ← List.range_eq_range', Nat.zero_add] at hr1
  rw [hB0, ← List.range_eq_range'] at hr2
  obtain ⟨⟨rest, hp, hz⟩, hub⟩ := chunks_ok hs hT hb1 hls fun r hr => Nat.le_trans (hr2 r hr) (Nat.min_le_right _ _)
  rw [← e2] at hp hub
  rw [hr1] at hp
  -- the visits are the nodes of the chunks
  have hall : ((List.range chunks.length).flatMap fun i => visits P (perm i) (subs i) (chunks.getD i (0, 0))).Perm
      (chunks.flatMap Chunk.nodes) := by
    rw [← flatMap_getD]
    refine perm_flatMap_congr fun i hi => ?_
    have hi := List.mem_range.1 hi
    refine visits_perm hP (hperm i hi).1 (hperm i hi).2 ?_
    have hm : chunks.getD i (0, 0) ∈ chunks := by
      rw [List.getD_eq_getElem?_getD, List.getElem?_eq_getElem hi]
      exact List.getElem_mem hi
    have := hub _ hm
    omega
  obtain ⟨dropped, hok⟩ := runRound_ok (deg := deg) (maxDegree := maxDegree)
    (order := fun i => visits P (perm i) (subs i) (chunks.getD i (0, 0))) hx
  rw [← hst] at hok
  have hcount : ∀ a, (((List.range chunks.length).flatMap fun i => visits P (perm i) (subs i) (chunks.getD i (0, 0))).filter fun u =>
      decide (deg u < maxDegree)).count a = ((chunks.flatMap Chunk.nodes).filter fun u => decide (deg u < maxDegree)).count a :=
    fun a => (hall.filter _).count_eq a
  have hnd : (chunks.flatMap Chunk.nodes ++ rest).Nodup := hp.nodup_iff.2 List.nodup_range'
  have hnd2 : ((chunks.flatMap Chunk.nodes).filter fun u => decide (deg u < maxDegree)).Nodup :=
    (List.nodup_append.1 hnd).1.filter _
  refine ⟨?_, ?_, ?_⟩
  · rw [List.nodup_iff_count]
    intro a
    have h1 := hok.count a
    rw [hcount a] at h1
    have h2 := List.nodup_iff_count.1 hnd2 a
    omega
  · intro u hu
    have h1 := hok.count u
    rw [hcount u] at h1
    have h2 := List.count_pos_iff.2 hu
    have h3 : u ∈ (chunks.flatMap Chunk.nodes).filter fun u => decide (deg u < maxDegree) := List.count_pos_iff.1 (by omega)
    obtain ⟨h4, h5⟩ := List.mem_filter.1 h3
    have h6 := hp.mem_iff.1 (List.mem_append_left _ h4)
    rw [List.mem_range'_1] at h6
    have h5 : deg u < maxDegree := of_decide_eq_true h5
    refine ⟨by omega, by omega, by omega, by omega, h5⟩
  · intro hc hsched u h1 h2 h3 h4 h5 h6
    obtain ⟨hd, hnext⟩ := hok.full hsched
    have hst : started chunks.length st.queue = chunks.length := by
      unfold started
      have : (List.range chunks.length).countP (fun i => (st.queue i).isSome) = (List.range chunks.length).length := by
        rw [List.countP_eq_length]
        intro i hi
        rw [hc i (List.mem_range.1 hi)]
        rfl
      rw [this, List.length_range]
    have hpend : pending chunks.length deg maxDegree st.queue = [] := by
      unfold pending
      rw [List.flatMap_eq_nil_iff]
      intro i hi
      rw [hc i (List.mem_range.1 hi)]
      rfl
    have h7 := hok.count u
    rw [hcount u, hd, hpend, hnext, hst, Nat.sub_self] at h7
    simp only [List.count_nil, List.range'_zero, List.flatMap_nil, List.filter_nil, Nat.add_zero] at h7
    have h8 : u ∈ chunks.flatMap Chunk.nodes ++ rest := by
      rw [hp.mem_iff, List.mem_range'_1]
      omega
    have h9 : u ∈ chunks.flatMap Chunk.nodes := by
      rcases List.mem_append.1 h8 with h | h
      · exact h
      · have := hz u h
        omega
    have h10 : u ∈ (chunks.flatMap Chunk.nodes).filter fun u => decide (deg u < maxDegree) :=
      List.mem_filter.2 ⟨h9, decide_eq_true h6⟩
    exact List.count_pos_iff.1 (by rw [h7]; exact List.count_pos_iff.2 h10)

/-! ## Theorems -/

/-- **C71.**  At every point of a round, whatever the schedule: no node has been handled twice, and all handled nodes are in the range of
the round and have a degree below the threshold. -/
theorem C71_no_node_twice {deg B : Nat → Nat} {n numBuckets maxDegree S s T P fr ub : Nat} {chunks : List Chunk} {sched : List (Nat × Bool)}
    {st : Round} (hB0 : B 0 = 0) (hB : ∀ b, B b ≤ B (b + 1)) (hs : 0 < s) (hT : 0 < T) (hP : 0 < P) (hb1 : n + s * T ≤ 2 ^ 32)
    (hb2 : n + P ≤ 2 ^ 32) (hf : fr ≤ ub) (hn : fr ≤ n) (h : IsRound deg B n numBuckets maxDegree S s T P fr ub chunks sched st) :
    st.log.Nodup ∧ ∀ u ∈ st.log, fr ≤ u ∧ u < ub ∧ u < n ∧ deg u < maxDegree := by
  obtain ⟨nb, ls, hnb, -⟩ := h.1
  obtain ⟨h1, h2, -⟩ := round_ok hB0 hB hs hT hP hb1 hb2 hf hn hnb h
  exact ⟨h1, fun u hu => ⟨(h2 u hu).1, (h2 u hu).2.1, (h2 u hu).2.2.1, (h2 u hu).2.2.2.2⟩⟩

/-- **C71 for a graph that is not sorted**, which has one bucket: a round that is not stopped and finds all nodes active handles all nodes
of the range with a positive degree below the threshold (and no node twice, `C71_no_node_twice`). -/
theorem C71_every_node_unsorted {deg B : Nat → Nat} {n maxDegree S s T P fr ub : Nat} {chunks : List Chunk} {sched : List (Nat × Bool)}
    {st : Round} (hB0 : B 0 = 0) (hB : ∀ b, B b ≤ B (b + 1)) (hB1 : B 1 = n) (hs : 0 < s) (hT : 0 < T) (hP : 0 < P)
    (hb1 : n + s * T ≤ 2 ^ 32) (hb2 : n + P ≤ 2 ^ 32) (hf : fr ≤ ub) (hn : fr ≤ n) (hmax : 2 ≤ maxDegree) (hmax2 : maxDegree < 2 ^ 32)
    (h : IsRound deg B n 1 maxDegree S s T P fr ub chunks sched st) (hc : st.Complete chunks.length) (hall : ∀ x ∈ sched, x.2 = true)
    (u : Nat) (h1 : fr ≤ u) (h2 : u < ub) (h3 : u < n) (h4 : 0 < deg u) (h5 : deg u < maxDegree) : u ∈ st.log := by
  have hl : 1 ≤ Nat.log2 maxDegree := (Nat.le_log2 (by omega)).2 hmax
  have hnb := maxBucket_eq (numBuckets := 1) (Nat.log2_self_le (by omega)) Nat.lt_log2_self hmax2
  rw [Nat.min_eq_right hl] at hnb
  exact (round_ok hB0 hB hs hT hP hb1 hb2 hf hn hnb h).2.2 hc (by rw [List.all_eq_true]; exact hall) u h1 h2 h3 (by omega) h4 h5

/-- **C71 for a graph that is sorted by degree buckets.**  If the threshold has `l + 2` binary digits, a round that is not stopped and finds
all nodes active handles exactly the nodes of the range with a degree below `2^l` (except for nodes without neighbours, which may be left
out).  Missing: nodes with a larger degree that are below the threshold; they are never handled. -/
theorem C71_every_node_sorted_partial {deg B : Nat → Nat} {n numBuckets maxDegree S s T P fr ub l : Nat} {chunks : List Chunk}
    {sched : List (Nat × Bool)} {st : Round} (hB0 : B 0 = 0) (hB : ∀ b, B b ≤ B (b + 1))
    (hsorted : ∀ u, u < n → bucketIdx (deg u) < numBuckets ∧ B (bucketIdx (deg u)) ≤ u ∧ u < B (bucketIdx (deg u) + 1))
    (hdeg : ∀ u, u < n → deg u < 2 ^ 32) (hs : 0 < s) (hT : 0 < T) (hP : 0 < P)
    (hb1 : n + s * T ≤ 2 ^ 32) (hb2 : n + P ≤ 2 ^ 32) (hf : fr ≤ ub) (hn : fr ≤ n) (hmax : 2 ^ (l + 1) ≤ maxDegree)
    (hmax2 : maxDegree < 2 ^ (l + 2)) (hmax3 : maxDegree < 2 ^ 32)
    (h : IsRound deg B n numBuckets maxDegree S s T P fr ub chunks sched st) (hc : st.Complete chunks.length)
    (hall : ∀ x ∈ sched, x.2 = true) (u : Nat) (h1 : fr ≤ u) (h2 : u < ub) (h3 : u < n) (h4 : 0 < deg u) :
    u ∈ st.log ↔ deg u < 2 ^ l := by
  have hmono : ∀ a k, B a ≤ B (a + k) := by
    intro a k
    induction k with
    | zero => exact Nat.le_refl _
    | succ k ih => exact Nat.le_trans ih (hB _)
  have hnb := maxBucket_eq (numBuckets := numBuckets) hmax hmax2 hmax3
  obtain ⟨-, r2, r3⟩ := round_ok hB0 hB hs hT hP hb1 hb2 hf hn hnb h
  obtain ⟨s1, s2, s3⟩ := hsorted u h3
  have hidx := bucketIdx_eq (hdeg u h3)
  rw [if_neg (by omega)] at hidx
  constructor
  · intro hu
    have hlt := (r2 u hu).2.2.2.1
    rcases Nat.lt_or_ge (deg u) (2 ^ l) with h5 | h5
    · exact h5
    · have h6 : l ≤ Nat.log2 (deg u) := (Nat.le_log2 (by omega)).2 h5
      have h7 := hmono (min (l + 1) numBuckets) (bucketIdx (deg u) - min (l + 1) numBuckets)
      have h8 : min (l + 1) numBuckets + (bucketIdx (deg u) - min (l + 1) numBuckets) = bucketIdx (deg u) := by omega
      rw [h8] at h7
      omega
  · intro h5
    have h6 : Nat.log2 (deg u) < l := (Nat.log2_lt (by omega)).2 h5
    have h7 := hmono (bucketIdx (deg u) + 1) (min (l + 1) numBuckets - (bucketIdx (deg u) + 1))
    have h8 : bucketIdx (deg u) + 1 + (min (l + 1) numBuckets - (bucketIdx (deg u) + 1)) = min (l + 1) numBuckets := by omega
    rw [h8] at h7
    have h9 : 2 ^ l < 2 ^ (l + 1) := Nat.pow_lt_pow_right (by decide) (by omega)
    exact r3 hc (by rw [List.all_eq_true]; exact hall) u h1 h2 h3 (by omega) h4 (by omega)

/-- **C71 fails for the threshold 1000000** (the default for distributed graphs) on sorted graphs: no round ever handles a node with
262144 or more neighbours, although only nodes with 1000000 or more neighbours should be left out. -/
theorem C71_large_nodes_never_handled {deg B : Nat → Nat} {n numBuckets S s T P fr ub : Nat} {chunks : List Chunk}
    {sched : List (Nat × Bool)} {st : Round} (hB0 : B 0 = 0) (hB : ∀ b, B b ≤ B (b + 1))
    (hsorted : ∀ u, u < n → bucketIdx (deg u) < numBuckets ∧ B (bucketIdx (deg u)) ≤ u ∧ u < B (bucketIdx (deg u) + 1))
    (hdeg : ∀ u, u < n → deg u < 2 ^ 32) (hs : 0 < s) (hT : 0 < T) (hP : 0 < P)
    (hb1 : n + s * T ≤ 2 ^ 32) (hb2 : n + P ≤ 2 ^ 32) (hf : fr ≤ ub) (hn : fr ≤ n)
    (h : IsRound deg B n numBuckets 1000000 S s T P fr ub chunks sched st) (u : Nat) (hu : 262144 ≤ deg u) : u ∉ st.log := by
  intro hmem
  have hmono : ∀ a k, B a ≤ B (a + k) := by
    intro a k
    induction k with
    | zero => exact Nat.le_refl _
    | succ k ih => exact Nat.le_trans ih (hB _)
  have hnb := maxBucket_eq (maxDegree := 1000000) (numBuckets := numBuckets) (l := 19) (by decide) (by decide) (by decide)
  obtain ⟨-, r2, -⟩ := round_ok hB0 hB hs hT hP hb1 hb2 hf hn hnb h
  obtain ⟨-, -, h3, h4, -⟩ := r2 u hmem
  obtain ⟨s1, s2, -⟩ := hsorted u h3
  have hidx := bucketIdx_eq (hdeg u h3)
  rw [if_neg (by omega)] at hidx
  have h6 : 18 ≤ Nat.log2 (deg u) := (Nat.le_log2 (by omega)).2 (by omega)
  have h7 := hmono (min 19 numBuckets) (bucketIdx (deg u) - min 19 numBuckets)
  have h8 : min 19 numBuckets + (bucketIdx (deg u) - min 19 numBuckets) = bucketIdx (deg u) := by omega
  rw [h8] at h7
  omega

/-- **C71, two phases.**  The nodes that are handled in the two phases together are those of the log of the first phase, each once. -/
theorem C71_two_phases {defers : Nat → Bool} {log handled : List Nat} (h : TwoPhase defers log handled) : handled.Perm log := by
  obtain ⟨second, h1, rfl⟩ := h
  refine (h1.append_left _).trans ?_
  refine List.perm_append_comm.trans ?_
  exact List.filter_append_perm defers log

/-! ## Examples -/

/-- The degrees of a graph with 6 nodes, sorted by buckets: 1, 1, 1, 2, 3, 4. -/
def exDeg (u : Nat) : Nat := [1, 1, 1, 2, 3, 4].getD u 0

/-- The first nodes of its buckets. -/
def exB (b : Nat) : Nat := [0, 0, 3, 5, 6].getD b 6

example : (CsrGraph.initDegreeBuckets true 6 exDeg).map (fun b => ((List.range 6).map b.1, b.2)) = some ((List.range 6).map exB, 4) := by
  decide +kernel

/-- A round on it with the threshold 8. -/
def exRound : Round :=
  runRound exDeg 8 [(2, 3), (0, 2), (3, 4), (4, 5)] (fun i => visits 2 [1, 0] [0] ([(2, 3), (0, 2), (3, 4), (4, 5)].getD i (0, 0)))
    ([2, 0, 0, 1, 2, 0, 1, 3, 3].map fun i => (i, true))

/-- The hypotheses of `C71_every_node_sorted_partial` are met: the node 5 of degree 4 is left out. -/
example : ∃ chunks sched, IsRound exDeg exB 6 4 8 2 2 2 2 0 6 chunks sched exRound ∧ exRound.Complete chunks.length ∧
    (∀ x ∈ sched, x.2 = true) ∧ exRound.log = [1, 2, 0, 3, 4] := by
  refine ⟨[(2, 3), (0, 2), (3, 4), (4, 5)], [2, 0, 0, 1, 2, 0, 1, 3, 3].map fun i => (i, true),
    ⟨⟨3, [[(2, 3), (0, 2)], [(3, 4), (4, 5)]], by decide +kernel, rfl, ?_⟩, by decide +kernel, fun _ => [1, 0], fun _ => [0], ?_, rfl⟩, ?_,
    by decide +kernel, by decide +kernel⟩
  · have : bucketRanges exB 0 (min 6 6) (List.range 3) 0 = [(0, 3), (3, 2)] := by decide +kernel
    rw [this]
    refine .cons ⟨[0, 1, 1, 0, 0, 1, 0, 1], by decide +kernel, by decide +kernel, by decide +kernel⟩
      (.cons ⟨[0, 1, 1, 0, 0, 1, 0, 1], by decide +kernel, by decide +kernel, by decide +kernel⟩ .nil)
  · show ∀ i, i < 4 → _
    decide +kernel
  · show ∀ i, i < 4 → exRound.queue i = some []
    decide +kernel

/-- A round may be stopped or find nodes that are not active. -/
example : (runRound exDeg 8 [(2, 3), (0, 2), (3, 4), (4, 5)] (fun i => visits 2 [1, 0] [0] ([(2, 3), (0, 2), (3, 4), (4, 5)].getD i (0, 0)))
    [(2, true), (0, true), (0, false), (1, false), (2, true), (0, true)]).log = [2, 0] := by
  decide +kernel

/-- The nodes of a range across buckets, as in a distributed round. -/
example : bucketRanges exB 2 5 (List.range 4) 0 = [(2, 1), (3, 2)] := by decide +kernel

end Verif.LP
