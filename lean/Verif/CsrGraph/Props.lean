import Verif.CsrGraph.Model
import Verif.Reduce.Props
import Verif.Permute.Props
import Verif.Math.Props

/-!
# C26 and C23: the CSR graph agrees with its arrays; isolated nodes
-/

namespace Verif.CsrGraph
open Verif.Math Verif.Reduce Finset

/-! ## Specification -/

/-- The weight of item `i` according to an optional array of weights. -/
def weightAt (a : Arr Int) (i : Nat) : Int := if a.size = 0 then 1 else a.data i

/-- Optional array of weights for `n` items, all positive. -/
def Weights (a : Arr Int) (n : Nat) : Prop := (a.size = 0 ∨ a.size = n) ∧ ∀ i, i < a.size → 1 ≤ a.data i

theorem all_one {f : Nat → Int} : ∀ {n : Nat}, (∀ i, i < n → 1 ≤ f i) →
    (n : Int) ≤ ∑ i ∈ range n, f i ∧ (∑ i ∈ range n, f i = n → ∀ i, i < n → f i = 1)
  | 0, _ => ⟨by simp, fun _ i hi => absurd hi (Nat.not_lt_zero i)⟩
  | n + 1, h => by
    obtain ⟨h1, h2⟩ := all_one (n := n) fun i hi => h i (by omega)
    have hn := h n (by omega)
    rw [Finset.sum_range_succ]
    push_cast
    refine ⟨by omega, fun heq i hi => ?_⟩
    by_cases hin : i = n
    · subst hin; omega
    · exact h2 (by omega) i (by omega)

/-- Choosing between the array and 1 by comparing the total with the number of items. -/
theorem choose_eq {a : Arr Int} {n : Nat} (ha : Weights a n) {total : Int}
    (ht : total = ∑ i ∈ range n, weightAt a i) {i : Nat} (hi : i < n) :
    (if (decide ((n : Int) ≠ total)) = true then a.data i else 1) = weightAt a i := by
  rw [ht]
  unfold weightAt
  by_cases h0 : a.size = 0
  · simp [h0]
  · have hs : a.size = n := ha.1.resolve_left h0
    simp only [h0, if_false]
    by_cases heq : (n : Int) = ∑ i ∈ range n, a.data i
    · have := (all_one fun i hi => ha.2 i (by omega)).2 heq.symm i hi
      rw [if_neg (by simpa using heq), this]
    · rw [if_pos (by simpa using heq)]

theorem total_eq {a : Arr Int} {n : Nat} (ha : Weights a n) {s : Sched} (hs : s.covers 0 a.size) :
    (if a.size = 0 then (n : Int) else accumulate a.data 0 s) = ∑ i ∈ range n, weightAt a i := by
  unfold weightAt
  by_cases h0 : a.size = 0
  · simp [h0]
  · simp only [h0, if_false]
    rw [C47_accumulate a.data 0 a.size s hs, zero_add, ha.1.resolve_left h0]

theorem take_range' : ∀ (n a k : Nat), (List.range' a n).take k = List.range' a (min k n)
  | 0, a, k => by simp
  | n + 1, a, 0 => by simp
  | n + 1, a, k + 1 => by
    rw [List.range'_succ, List.take_succ_cons, take_range' n, show min (k + 1) (n + 1) = min k n + 1 by omega,
      List.range'_succ]

theorem edges_sum_congr {f g : Nat → Int} {l : List Nat} (h : ∀ i ∈ l, f i = g i) : l.map f = l.map g :=
  List.map_congr_left h

/-- What the interface of a graph must answer for the input arrays. -/
structure Agrees (nodes : Arr Nat) (edges : Arr Nat) (nw ew : Arr Int) (g : G) : Prop where
  n : g.n = nodes.size - 1
  m : g.m = edges.size
  degree : ∀ u, u < g.n → g.degree u = nodes.data (u + 1) - nodes.data u
  nodeWeight : ∀ u, u < g.n → g.nodeWeight u = weightAt nw u
  edgeWeight : ∀ e, e < g.m → g.edgeWeight e = weightAt ew e
  adjacent : ∀ u, u < g.n → g.adjacentNodes u =
    (List.range' (nodes.data u) (g.degree u)).map fun e => (edges.data e, weightAt ew e)
  adjacentUpTo : ∀ u, u < g.n → ∀ k, g.adjacentNodesUpTo u k = (g.adjacentNodes u).take k
  totalNw : g.totalNw = ∑ u ∈ range g.n, weightAt nw u
  totalEw : g.totalEw = ∑ e ∈ range g.m, weightAt ew e
  maxNwUpper : ∀ u, u < g.n → weightAt nw u ≤ g.maxNw
  maxNwAttained : 0 < g.n → ∃ u, u < g.n ∧ g.maxNw = weightAt nw u

theorem agrees_of {nodes edges : Arr Nat} {nw ew : Arr Int} {g : G}
    (hn : g.nodes = nodes) (he : g.edges = edges) (hnw : g.nw = nw) (hew : g.ew = ew)
    (hwn : Weights nw (nodes.size - 1)) (hwe : Weights ew edges.size)
    (hmono : ∀ u, u < nodes.size - 1 → nodes.data u ≤ nodes.data (u + 1))
    (hlast : ∀ u, u < nodes.size - 1 → nodes.data (u + 1) ≤ edges.size)
    (h1 : g.totalNw = ∑ i ∈ range (nodes.size - 1), weightAt nw i)
    (h2 : g.totalEw = ∑ i ∈ range edges.size, weightAt ew i)
    (h3 : ∀ u, u < nodes.size - 1 → weightAt nw u ≤ g.maxNw)
    (h4 : 0 < nodes.size - 1 → ∃ u, u < nodes.size - 1 ∧ g.maxNw = weightAt nw u) : Agrees nodes edges nw ew g := by
  have hn' : g.n = nodes.size - 1 := by rw [G.n, hn]
  have hm' : g.m = edges.size := by rw [G.m, he]
  have hew' : ∀ e, e < g.m → (if g.isEdgeWeighted then g.ew.data e else 1) = weightAt ew e := by
    intro e hlt
    rw [G.isEdgeWeighted, hm', hew]
    exact choose_eq hwe h2 (hm' ▸ hlt)
  have hadj : ∀ u, u < g.n → g.adjacentNodes u =
      (List.range' (nodes.data u) (g.degree u)).map fun e => (edges.data e, weightAt ew e) := by
    intro u hu
    unfold G.adjacentNodes G.degree
    rw [hn, he]
    apply List.map_congr_left
    intro e hmem
    have h' := List.mem_range'_1.1 hmem
    have := hlast u (hn' ▸ hu)
    have := hmono u (hn' ▸ hu)
    rw [hew' e (by omega)]
  refine ⟨hn', hm', fun u _ => by rw [G.degree, hn], ?_, hew', hadj, ?_, by rw [hn']; exact h1, by rw [hm']; exact h2,
    fun u hu => h3 u (hn' ▸ hu), fun hpos => ?_⟩
  · intro u hu
    rw [G.nodeWeight, G.isNodeWeighted, hn', hnw]
    exact choose_eq hwn h1 (hn' ▸ hu)
  · intro u hu k
    rw [hadj u hu, ← List.map_take]
    unfold G.adjacentNodesUpTo
    rw [take_range', hn, he]
    have hd : g.nodes.data u + min (g.degree u) k - g.nodes.data u = min k (g.degree u) := by omega
    simp only [← hn, hd]
    apply List.map_congr_left
    intro e hmem
    have h' := List.mem_range'_1.1 hmem
    have hd2 : g.degree u = nodes.data (u + 1) - nodes.data u := by rw [G.degree, hn]
    have := hlast u (hn' ▸ hu)
    have := hmono u (hn' ▸ hu)
    rw [hn] at h'
    rw [hew' e (by omega)]
  · obtain ⟨u, hu, h⟩ := h4 (by omega)
    exact ⟨u, by omega, h⟩

/-- **C26, parallel constructor.**  For valid arrays with positive weights and every execution of the parallel
reductions, all accessors agree with the arrays. -/
theorem C26_accessors_partial (lowest : Int) (nodes edges : Arr Nat) (nw ew : Arr Int) (sorted : Bool) (s : Scheds)
    (g : G) (hg : build lowest nodes edges nw ew sorted s = some g)
    (hwn : Weights nw (nodes.size - 1)) (hwe : Weights ew edges.size) (hlow : lowest ≤ 1)
    (hmono : ∀ u, u < nodes.size - 1 → nodes.data u ≤ nodes.data (u + 1))
    (hlast : ∀ u, u < nodes.size - 1 → nodes.data (u + 1) ≤ edges.size)
    (hs1 : s.nw.covers 0 nw.size) (hs2 : s.ew.covers 0 ew.size) (hs3 : s.deg.covers 0 (nodes.size - 1)) :
    Agrees nodes edges nw ew g ∧
    ∃ d, g.maxDegree = some d ∧ (∀ u, u < g.n → g.degree u ≤ d) ∧
      (if g.n = 0 then d = 0 else ∃ u, u < g.n ∧ g.degree u = d) := by
  unfold build at hg
  cases hb : initDegreeBuckets sorted (nodes.size - 1) fun u => nodes.data (u + 1) - nodes.data u with
  | none => rw [hb] at hg; exact absurd hg (fun h => nomatch h)
  | some bn =>
    rw [hb] at hg
    have hg := (Option.some.inj hg).symm
    have hmaxspec : nw.size ≠ 0 → _ := fun h0 =>
      C47_max_element lowest nw.data nw.size (by omega) (fun i hi => le_trans hlow (hwn.2 i hi)) s.nw hs1
    refine ⟨agrees_of (by rw [hg]) (by rw [hg]) (by rw [hg]) (by rw [hg]) hwn hwe hmono hlast ?_ ?_ ?_ ?_, ?_⟩
    · rw [hg]; exact total_eq hwn hs1
    · rw [hg]; exact total_eq hwe hs2
    · intro u hu
      rw [hg]
      show _ ≤ (if nw.size = 0 then 1 else maxElement lowest nw.data s.nw)
      unfold weightAt
      by_cases h0 : nw.size = 0
      · simp [h0]
      · simp only [h0, if_false]
        exact (hmaxspec h0).1 u (by rw [hwn.1.resolve_left h0]; exact hu)
    · intro hpos
      rw [hg]
      show ∃ u, u < nodes.size - 1 ∧ (if nw.size = 0 then 1 else maxElement lowest nw.data s.nw) = weightAt nw u
      unfold weightAt
      by_cases h0 : nw.size = 0
      · exact ⟨0, hpos, by simp [h0]⟩
      · obtain ⟨i, hi, h⟩ := (hmaxspec h0).2
        refine ⟨i, by rw [← hwn.1.resolve_left h0]; exact hi, ?_⟩
        simp only [h0, if_false]
        exact h
    · obtain ⟨h1, h2⟩ := C47_max_difference nodes.data nodes.size s.deg hs3
      have hn : g.n = nodes.size - 1 := by rw [hg]; rfl
      have hd : ∀ u, g.degree u = nodes.data (u + 1) - nodes.data u := fun u => by rw [hg]; rfl
      refine ⟨maxDifference nodes.data nodes.size s.deg, by rw [hg], ?_, ?_⟩
      · intro u hu
        rw [hd]; exact h1 u (by omega)
      · split
        · rename_i h0
          rcases h2 with h2 | ⟨i, hi, h2⟩
          · exact h2
          · omega
        · rename_i h0
          rcases h2 with h2 | ⟨i, hi, h2⟩
          · refine ⟨0, by omega, ?_⟩
            have := h1 0 (by omega)
            rw [hd]; omega
          · exact ⟨i, by omega, by rw [hd]; exact h2.symm⟩

theorem seqSum_eq (a : Arr Int) : seqSum a = ∑ i ∈ range a.size, a.data i := by
  unfold seqSum
  rw [foldl_add, zero_add, Reduce.sum_range_list]

theorem seqMax_spec {a : Arr Int} (h : 0 < a.size) :
    (∀ i, i < a.size → a.data i ≤ seqMax a) ∧ ∃ i, i < a.size ∧ seqMax a = a.data i := by
  unfold seqMax
  obtain ⟨⟨h1, h2⟩, h3⟩ := foldl_max_spec a.data (List.range' 1 (a.size - 1)) (a.data 0)
  refine ⟨fun i hi => ?_, ?_⟩
  · by_cases h0 : i = 0
    · subst h0; exact h1
    · exact h2 i (List.mem_range'_1.2 (by omega))
  · rcases h3 with h3 | ⟨i, hi, h3⟩
    · exact ⟨0, h, h3⟩
    · have := List.mem_range'_1.1 hi
      exact ⟨i, by omega, h3⟩

theorem seqTotal_eq {a : Arr Int} {n : Nat} (ha : Weights a n) :
    (if a.size = 0 then (n : Int) else seqSum a) = ∑ i ∈ range n, weightAt a i := by
  unfold weightAt
  by_cases h0 : a.size = 0
  · simp [h0]
  · simp only [h0, if_false]
    rw [seqSum_eq, ha.1.resolve_left h0]

theorem seqMaxW_spec {a : Arr Int} {n : Nat} (ha : Weights a n) :
    (∀ i, i < n → weightAt a i ≤ if a.size = 0 then 1 else seqMax a) ∧
      (0 < n → ∃ i, i < n ∧ (if a.size = 0 then 1 else seqMax a) = weightAt a i) := by
  unfold weightAt
  by_cases h0 : a.size = 0
  · simp only [h0, if_true]
    exact ⟨fun i _ => le_refl _, fun h => ⟨0, h, trivial⟩⟩
  · simp only [h0, if_false]
    have := seqMax_spec (a := a) (by omega)
    rw [ha.1.resolve_left h0] at this
    exact ⟨this.1, fun _ => this.2⟩

/-- **C26, sequential constructor.**  Everything but the maximum degree agrees. -/
theorem C26_accessors_seq_partial (nodes edges : Arr Nat) (nw ew : Arr Int) (sorted : Bool)
    (g : G) (hg : buildSeq nodes edges nw ew sorted = some g)
    (hwn : Weights nw (nodes.size - 1)) (hwe : Weights ew edges.size)
    (hmono : ∀ u, u < nodes.size - 1 → nodes.data u ≤ nodes.data (u + 1))
    (hlast : ∀ u, u < nodes.size - 1 → nodes.data (u + 1) ≤ edges.size) : Agrees nodes edges nw ew g := by
  unfold buildSeq at hg
  cases hb : initDegreeBuckets sorted (nodes.size - 1) fun u => nodes.data (u + 1) - nodes.data u with
  | none => rw [hb] at hg; exact absurd hg (fun h => nomatch h)
  | some bn =>
    rw [hb] at hg
    have hg := (Option.some.inj hg).symm
    refine agrees_of (by rw [hg]) (by rw [hg]) (by rw [hg]) (by rw [hg]) hwn hwe hmono hlast ?_ ?_ ?_ ?_
    · rw [hg]; exact seqTotal_eq hwn
    · rw [hg]; exact seqTotal_eq hwe
    · rw [hg]; exact (seqMaxW_spec hwn).1
    · rw [hg]; exact (seqMaxW_spec hwn).2

/-- **C26, negative.**  The sequential constructor leaves the maximum degree uninitialised. -/
theorem C26_seq_max_degree_uninitialised (nodes edges : Arr Nat) (nw ew : Arr Int) (sorted : Bool) (g : G)
    (hg : buildSeq nodes edges nw ew sorted = some g) : g.maxDegree = none := by
  unfold buildSeq at hg
  cases hb : initDegreeBuckets sorted (nodes.size - 1) fun u => nodes.data (u + 1) - nodes.data u with
  | none => rw [hb] at hg; exact absurd hg (fun h => nomatch h)
  | some bn => rw [hb] at hg; rw [← Option.some.inj hg]

/-- **C26, negative.**  If node weights may be zero, a weighted graph whose weights happen to sum up to `n` is
taken for an unweighted one: here the weights are 0 and 2, but both nodes report weight 1. -/
theorem C26_zero_weights_misread :
    ((build (-2147483648) (.owned (fun _ => 0) 3) (.owned (fun _ => 0) 0) (.owned (fun u => if u = 0 then 0 else 2) 2)
      (.owned (fun _ => 0) 0) false ⟨.body [(0, 2)], .body [], .body [(0, 2)]⟩).map
        fun g => (g.nodeWeight 0, g.nodeWeight 1)) = some (1, 1) := by
  decide +kernel

/-! ## Degree buckets -/

theorem bucketIdx_eq {d : Nat} (hd : d < 2 ^ 32) : bucketIdx d = if d = 0 then 0 else Nat.log2 d + 1 := by
  unfold bucketIdx
  rw [degreeBucket_eq hd]; rfl

theorem bucketIdx_le {d : Nat} (hd : d < 2 ^ 32) : bucketIdx d ≤ 32 := by
  rw [bucketIdx_eq hd]
  split
  · omega
  · rename_i h
    have := Permute.log2_lt h hd
    omega

theorem bucketIdx_zero {d : Nat} (hd : d < 2 ^ 32) : bucketIdx d = 0 ↔ d = 0 := by
  rw [bucketIdx_eq hd]
  split <;> omega

theorem countBuckets_spec (deg : Nat → Nat) : ∀ n, countBuckets n deg 0 = 0 ∧
    ∀ i, countBuckets n deg (i + 1) = (List.range n).countP fun u => bucketIdx (deg u) = i
  | 0 => ⟨rfl, fun _ => rfl⟩
  | n + 1 => by
    obtain ⟨h1, h2⟩ := countBuckets_spec deg n
    have hs : countBuckets (n + 1) deg = upd (countBuckets n deg) (bucketIdx (deg n) + 1)
        (countBuckets n deg (bucketIdx (deg n) + 1) + 1) := by
      unfold countBuckets
      rw [List.range_succ, List.foldl_append]; rfl
    rw [hs]
    refine ⟨by rw [upd_ne _ _ (by omega), h1], fun i => ?_⟩
    rw [List.range_succ, List.countP_append, List.countP_singleton]
    by_cases h : bucketIdx (deg n) = i
    · subst h; rw [upd_same, h2]; simp
    · rw [upd_ne _ _ (by omega), h2]; simp [h]

/-- After the prefix sum, entry `i` counts the nodes of smaller bucket. -/
theorem partialSum_spec (n : Nat) (deg : Nat → Nat) {i : Nat} (hi : i < bucketsSize) :
    partialSum bucketsSize (countBuckets n deg) i = (List.range n).countP fun u => bucketIdx (deg u) < i := by
  have h : partialSum bucketsSize (countBuckets n deg) i = Permute.psum (countBuckets n deg) (i + 1) :=
    Permute.prefixSum_eq _ hi
  rw [h, ← Permute.countP_below (fun u => bucketIdx (deg u))]
  obtain ⟨h1, h2⟩ := countBuckets_spec deg n
  clear h hi
  induction i with
  | zero => simp [Permute.psum, h1]
  | succ i ih => rw [Permute.psum, ih, h2, Permute.psum]

theorem lastNonempty_spec (b : Nat → Nat) : ∀ k,
    (lastNonempty b k = none ↔ ∀ i, i < k → b i = 0) ∧
    ∀ j, lastNonempty b k = some j → j < k ∧ 0 < b j ∧ ∀ i, j < i → i < k → b i = 0
  | 0 => ⟨⟨fun _ i hi => by omega, fun _ => rfl⟩, fun j h => nomatch h⟩
  | k + 1 => by
    obtain ⟨h1, h2⟩ := lastNonempty_spec b k
    rw [lastNonempty]
    by_cases hk : b k > 0
    · rw [if_pos hk]
      refine ⟨⟨(fun h => nomatch h), fun h => absurd (h k (by omega)) (by omega)⟩, fun j hj => ?_⟩
      obtain rfl := Option.some.inj hj
      exact ⟨by omega, hk, fun i h1 h2 => by omega⟩
    · rw [if_neg hk]
      refine ⟨h1.trans ⟨fun h i hi => ?_, fun h i hi => h i (by omega)⟩, fun j hj => ?_⟩
      · by_cases hik : i = k
        · subst hik; omega
        · exact h i (by omega)
      · obtain ⟨a, b', c⟩ := h2 j hj
        refine ⟨by omega, b', fun i h1 h2 => ?_⟩
        by_cases hik : i = k
        · subst hik; omega
        · exact c i h1 (by omega)

/-- **C26, the constructor is defined for every graph that is not an empty sorted graph.** -/
theorem C26_build_defined (lowest : Int) (nodes edges : Arr Nat) (nw ew : Arr Int) (sorted : Bool) (s : Scheds)
    (hdeg : ∀ u, u < nodes.size - 1 → nodes.data (u + 1) - nodes.data u < 2 ^ 32) :
    build lowest nodes edges nw ew sorted s = none ↔ sorted = true ∧ nodes.size - 1 = 0 := by
  have hbuild : build lowest nodes edges nw ew sorted s = none ↔
      initDegreeBuckets sorted (nodes.size - 1) (fun u => nodes.data (u + 1) - nodes.data u) = none := by
    unfold build
    cases h : initDegreeBuckets sorted (nodes.size - 1) fun u => nodes.data (u + 1) - nodes.data u with
    | none => exact ⟨fun _ => rfl, fun _ => rfl⟩
    | some x => exact ⟨(fun h => nomatch h), (fun h => nomatch h)⟩
  rw [hbuild]
  unfold initDegreeBuckets
  cases sorted with
  | false => simp
  | true =>
    simp only [if_true, true_and]
    obtain ⟨h1, h2⟩ := countBuckets_spec (fun u => nodes.data (u + 1) - nodes.data u) (nodes.size - 1)
    have hl := (lastNonempty_spec (countBuckets (nodes.size - 1) fun u => nodes.data (u + 1) - nodes.data u) bucketsSize).1
    have hiff : lastNonempty (countBuckets (nodes.size - 1) fun u => nodes.data (u + 1) - nodes.data u) bucketsSize = none ↔
        nodes.size - 1 = 0 := by
      rw [hl]
      constructor
      · intro h
        by_contra hne
        have hb := bucketIdx_le (hdeg 0 (by omega))
        have := h (bucketIdx (nodes.data (0 + 1) - nodes.data 0) + 1) (by unfold bucketsSize numDegreeBuckets; omega)
        rw [h2] at this
        have hc := List.countP_eq_zero.1 this 0 (List.mem_range.2 (by omega))
        simp at hc
      · intro h i _
        rw [h]; rfl
    rw [← hiff]
    cases lastNonempty (countBuckets (nodes.size - 1) fun u => nodes.data (u + 1) - nodes.data u) bucketsSize with
    | none => exact ⟨fun _ => rfl, fun _ => rfl⟩
    | some x => exact ⟨(fun h => nomatch h), (fun h => nomatch h)⟩

/-- Non-vacuity of C26: a triangle with a pendant node and weights. -/
example :
    let nodes : Arr Nat := .owned (fun u => [0, 2, 4, 7, 8].getD u 0) 5
    let edges : Arr Nat := .owned (fun e => [1, 2, 0, 2, 0, 1, 3, 2].getD e 0) 8
    let nw : Arr Int := .owned (fun u => [3, 1, 2, 5].getD u 0) 4
    let ew : Arr Int := .owned (fun _ => 0) 0
    let s : Scheds := ⟨.join (.body [(0, 3)]) (.body [(3, 4)]), .body [], .body [(0, 2), (2, 4)]⟩
    ((build (-2147483648) nodes edges nw ew false s).map fun g => (g.n, g.totalNw, g.maxNw)) = some (4, 11, 5) ∧
    ((build (-2147483648) nodes edges nw ew false s).map fun g => (g.totalEw, g.maxDegree, g.adjacentNodes 2)) =
      some (8, some 3, [(0, 1), (1, 1), (3, 1)]) := by
  intro nodes edges nw ew s
  exact ⟨by decide +kernel, by decide +kernel⟩

/-! ## C23: isolated nodes -/

theorem updateTotal_eq (g : G) : g.updateTotalNodeWeight =
    { g with totalNw := if g.nw.size = 0 then (g.n : Int) else seqSum g.nw
             maxNw := if g.nw.size = 0 then 1 else seqMax g.nw } := by
  unfold G.updateTotalNodeWeight
  by_cases h : g.nw.size = 0
  · simp [h]
  · simp [h]

/-- The state of a graph after its constructor or after the last integration, as far as it matters here. -/
structure Sorted (w : Nat) (g : G) : Prop where
  sorted : g.sorted = true
  nodesSize : 0 < g.nodes.size
  ownedNodes : g.nodes.usize = g.nodes.size
  ownedNw : g.nw.usize = g.nw.size
  weights : Weights g.nw g.n
  mono : ∀ u, u < g.n → g.nodes.data u ≤ g.nodes.data (u + 1)
  edges : ∀ u, u < g.n → g.nodes.data (u + 1) ≤ g.m
  degrees : ∀ u, u < g.n → g.degree u < 2 ^ 32
  width : g.n < 2 ^ w
  totalNw : g.totalNw = ∑ u ∈ range g.n, weightAt g.nw u
  maxNw : g.maxNw = if g.nw.size = 0 then 1 else seqMax g.nw
  buckets : ∀ i, i < bucketsSize → g.buckets i = (List.range g.n).countP fun u => bucketIdx (g.degree u) < i
  numBuckets : 0 < g.numBuckets ∧ (∀ u, u < g.n → bucketIdx (g.degree u) < g.numBuckets) ∧
    ∃ u, u < g.n ∧ bucketIdx (g.degree u) + 1 = g.numBuckets

theorem max_unique {f : Nat → Int} {n : Nat} {a b : Int} (ha : (∀ i, i < n → f i ≤ a) ∧ ∃ i, i < n ∧ a = f i)
    (hb : (∀ i, i < n → f i ≤ b) ∧ ∃ i, i < n ∧ b = f i) : a = b := by
  obtain ⟨i, hi, h1⟩ := ha.2
  obtain ⟨j, hj, h2⟩ := hb.2
  have := ha.1 j hj
  have := hb.1 i hi
  omega

/-- The parallel constructor establishes `Sorted`. -/
theorem build_sorted {lowest : Int} {nodes edges : Arr Nat} {nw ew : Arr Int} {s : Scheds} {w : Nat} {g : G}
    (hg : build lowest nodes edges nw ew true s = some g) (hsz : 0 < nodes.size)
    (hown : nodes.usize = nodes.size ∧ nw.usize = nw.size) (hw : nodes.size - 1 < 2 ^ w)
    (hwn : Weights nw (nodes.size - 1)) (hlow : lowest ≤ 1)
    (hmono : ∀ u, u < nodes.size - 1 → nodes.data u ≤ nodes.data (u + 1))
    (hlast : ∀ u, u < nodes.size - 1 → nodes.data (u + 1) ≤ edges.size)
    (hdeg : ∀ u, u < nodes.size - 1 → nodes.data (u + 1) - nodes.data u < 2 ^ 32)
    (hs1 : s.nw.covers 0 nw.size) : Sorted w g := by
  unfold build initDegreeBuckets at hg
  simp only [if_true] at hg
  cases hl : lastNonempty (countBuckets (nodes.size - 1) fun u => nodes.data (u + 1) - nodes.data u) bucketsSize with
  | none => rw [hl] at hg; exact absurd hg (fun h => nomatch h)
  | some num =>
    rw [hl] at hg
    have hg := (Option.some.inj hg).symm
    have hn : g.n = nodes.size - 1 := by rw [hg]; rfl
    have hd : ∀ u, g.degree u = nodes.data (u + 1) - nodes.data u := fun u => by rw [hg]; rfl
    have hnw : g.nw = nw := by rw [hg]
    have hnum : g.numBuckets = num := by rw [hg]
    obtain ⟨c1, c2⟩ := countBuckets_spec (fun u => nodes.data (u + 1) - nodes.data u) (nodes.size - 1)
    obtain ⟨l1, l2, l3⟩ := (lastNonempty_spec _ bucketsSize).2 num hl
    refine ⟨by rw [hg], by rw [hg]; exact hsz, by rw [hg]; exact hown.1, by rw [hg]; exact hown.2,
      by rw [hnw, hn]; exact hwn, by rw [hn, hg]; exact hmono, by rw [hn, hg]; exact hlast, ?_, by rw [hn]; exact hw,
      ?_, ?_, ?_, ?_⟩
    · intro u hu; rw [hd]; exact hdeg u (hn ▸ hu)
    · rw [hn, hnw, hg]; exact total_eq hwn hs1
    · rw [hnw, hg]
      show (if nw.size = 0 then 1 else maxElement lowest nw.data s.nw) = _
      by_cases h0 : nw.size = 0
      · simp [h0]
      · simp only [h0, if_false]
        exact max_unique (C47_max_element lowest nw.data nw.size (by omega)
          (fun i hi => le_trans hlow (hwn.2 i hi)) s.nw hs1) (seqMax_spec (by omega))
    · intro i hi
      have := partialSum_spec (nodes.size - 1) (fun u => nodes.data (u + 1) - nodes.data u) hi
      rw [hn]
      simp only [hd]
      rw [← this, hg]
    · have hpos : num ≠ 0 := fun h => by rw [h] at l2; omega
      have hcnt : 0 < (List.range (nodes.size - 1)).countP
          (fun u => decide (bucketIdx (nodes.data (u + 1) - nodes.data u) = num - 1)) := by
        have := c2 (num - 1)
        rw [show num - 1 + 1 = num by omega] at this
        rw [← this]; exact l2
      rw [hnum]
      refine ⟨by omega, fun u hu => ?_, ?_⟩
      · by_contra hge
        have hle := bucketIdx_le (hdeg u (hn ▸ hu))
        have h0 := l3 (bucketIdx (g.degree u) + 1) (by omega) (by
          rw [hd]; unfold bucketsSize numDegreeBuckets; omega)
        rw [c2] at h0
        have hc := List.countP_eq_zero.1 h0 u (List.mem_range.2 (hn ▸ hu))
        rw [hd] at hc
        simp at hc
      · obtain ⟨u, hu1, hu2⟩ := List.countP_pos_iff.1 hcnt
        have := of_decide_eq_true hu2
        exact ⟨u, by rw [hn]; exact List.mem_range.1 hu1, by rw [hd]; omega⟩

theorem remove_eq (w : Nat) (g : G) {num : Nat} (h0 : num ≠ 0) : g.removeIsolated w num =
    { g with
      nodes := g.nodes.restrict (g.n - num + 1)
      nw := if g.nw.size ≠ 0 then g.nw.restrict (g.n - num) else g.nw
      totalNw := if (if g.nw.size ≠ 0 then g.nw.restrict (g.n - num) else g.nw).size = 0 then ((g.n - num : Nat) : Int)
        else seqSum (if g.nw.size ≠ 0 then g.nw.restrict (g.n - num) else g.nw)
      maxNw := if (if g.nw.size ≠ 0 then g.nw.restrict (g.n - num) else g.nw).size = 0 then 1
        else seqMax (if g.nw.size ≠ 0 then g.nw.restrict (g.n - num) else g.nw)
      buckets := fun i => if 0 < i ∧ i < bucketsSize then subW w (g.buckets i) num else g.buckets i
      numBuckets := if g.numBuckets = 1 then 0 else g.numBuckets } := by
  unfold G.removeIsolated
  rw [if_neg h0]
  simp only [updateTotal_eq]
  by_cases hb : g.numBuckets = 1 <;> by_cases hnw : g.nw.size = 0 <;>
    simp [hb, hnw, G.n, Arr.restrict]

theorem integrate_eq (w : Nat) (g : G) : g.integrateIsolated w =
    ({ g with
      nodes := g.nodes.unrestrict
      nw := g.nw.unrestrict
      totalNw := if g.nw.unrestrict.size = 0 then ((g.nodes.usize - 1 : Nat) : Int) else seqSum g.nw.unrestrict
      maxNw := if g.nw.unrestrict.size = 0 then 1 else seqMax g.nw.unrestrict
      buckets := fun i => if 0 < i ∧ i < bucketsSize then (g.buckets i + (g.nodes.usize - 1 - g.n)) % 2 ^ w else g.buckets i
      numBuckets := if g.numBuckets = 0 then 1 else g.numBuckets }, g.nodes.usize - 1 - g.n) := by
  unfold G.integrateIsolated
  simp only [updateTotal_eq]
  by_cases hb : g.numBuckets = 0 <;> simp [hb, G.n, Arr.unrestrict]

theorem subW_add {w a b : Nat} (ha : a < 2 ^ w) (hb : b < 2 ^ w) : (subW w a b + b) % 2 ^ w = a := by
  unfold subW
  rw [Nat.mod_add_mod, show a + 2 ^ w - b + b = a + 2 ^ w by omega, Nat.add_mod_right, Nat.mod_eq_of_lt ha]

/-- **C23, restoring.**  Removing any number of nodes at the end of a sorted graph and integrating them again restores the
graph exactly: node count, weights, totals, maximum, degree buckets and their number; and the number of
isolated nodes is returned. -/
theorem C23_remove_integrate (w : Nat) (g : G) (hg : Sorted w g) (num : Nat) (hnum : num ≤ g.n) :
    (g.removeIsolated w num).integrateIsolated w = (g, num) := by
  have hbk : ∀ i, i < bucketsSize → g.buckets i < 2 ^ w := fun i hi => by
    rw [hg.buckets i hi]
    have := List.countP_le_length (p := fun u => decide (bucketIdx (g.degree u) < i)) (l := List.range g.n)
    rw [List.length_range] at this
    have := hg.width
    omega
  have htot : (if g.nw.size = 0 then ((g.nodes.size - 1 : Nat) : Int) else seqSum g.nw) = g.totalNw := by
    rw [hg.totalNw]; exact seqTotal_eq hg.weights
  obtain ⟨hb0, hb1, hb2⟩ := hg.numBuckets
  by_cases h0 : num = 0
  · subst h0
    have hrm : g.removeIsolated w 0 = g := rfl
    rw [hrm, integrate_eq]
    have h1 : g.nodes.unrestrict = g.nodes := by
      show Arr.mk g.nodes.data g.nodes.usize g.nodes.usize = g.nodes
      congr 1; exact hg.ownedNodes
    have h2 : g.nw.unrestrict = g.nw := by
      show Arr.mk g.nw.data g.nw.usize g.nw.usize = g.nw
      congr 1; exact hg.ownedNw
    rw [h1, h2, hg.ownedNodes, htot, ← hg.maxNw, if_neg (by omega)]
    have h3 : g.nodes.size - 1 - g.n = 0 := by unfold G.n; omega
    rw [h3]
    have h4 : (fun i => if 0 < i ∧ i < bucketsSize then (g.buckets i + 0) % 2 ^ w else g.buckets i) = g.buckets := by
      funext i
      split
      · rename_i h; rw [Nat.add_zero, Nat.mod_eq_of_lt (hbk i h.2)]
      · rfl
    rw [h4]
  · rw [remove_eq w g h0, integrate_eq]
    have hn1 : g.n = g.nodes.size - 1 := rfl
    have hsz := hg.nodesSize
    have h1 : (g.nodes.restrict (g.n - num + 1)).unrestrict = g.nodes := by
      show Arr.mk g.nodes.data g.nodes.size g.nodes.size = g.nodes
      rw [← hg.ownedNodes]; congr 1; exact hg.ownedNodes
    have h2 : (if g.nw.size ≠ 0 then g.nw.restrict (g.n - num) else g.nw).unrestrict = g.nw := by
      split
      · show Arr.mk g.nw.data g.nw.size g.nw.size = g.nw
        rw [← hg.ownedNw]; congr 1; exact hg.ownedNw
      · show Arr.mk g.nw.data g.nw.usize g.nw.usize = g.nw
        congr 1; exact hg.ownedNw
    have h3 : (g.nodes.restrict (g.n - num + 1)).usize = g.nodes.size := rfl
    have hn2 : ∀ x : G, x.nodes = g.nodes.restrict (g.n - num + 1) → x.n = g.n - num := by
      intro x hx; unfold G.n; rw [hx]; rfl
    dsimp only
    simp only [h1, h2, h3]
    rw [hn2 _ rfl, htot, ← hg.maxNw]
    have h4 : g.nodes.size - 1 - (g.n - num) = num := by omega
    rw [h4]
    have h5 : (fun i => if 0 < i ∧ i < bucketsSize then
        ((if 0 < i ∧ i < bucketsSize then subW w (g.buckets i) num else g.buckets i) + num) % 2 ^ w
        else if 0 < i ∧ i < bucketsSize then subW w (g.buckets i) num else g.buckets i) = g.buckets := by
      funext i
      split
      · rename_i h
        exact subW_add (hbk i h.2) (by have := hg.width; omega)
      · rfl
    rw [h5]
    have h6 : (if (if g.numBuckets = 1 then 0 else g.numBuckets) = 0 then 1
        else (if g.numBuckets = 1 then 0 else g.numBuckets)) = g.numBuckets := by
      split <;> split <;> omega
    rw [h6]

/-- **C23, what remains.**  Removing the isolated nodes, which are the last `num` nodes, keeps all other nodes
with their neighbours and weights, all edges, and reduces the total node weight by the weight of the removed
nodes; the maximum node weight is that of the remaining nodes. -/
theorem C23_remaining_graph (w : Nat) (g : G) (hg : Sorted w g) (num : Nat) (hnum : num ≤ g.n)
    (_hlast : ∀ u, u < g.n → (g.degree u = 0 ↔ g.n - num ≤ u)) :
    let g' := g.removeIsolated w num
    g'.n = g.n - num ∧ g'.m = g.m ∧ g'.totalEw = g.totalEw ∧
    (∀ u, u < g'.n → g'.adjacentNodes u = g.adjacentNodes u ∧ g'.degree u = g.degree u ∧
      g'.nodeWeight u = g.nodeWeight u) ∧
    g'.totalNw = ∑ u ∈ range g'.n, g.nodeWeight u ∧
    g.totalNw = g'.totalNw + ∑ u ∈ Ico (g.n - num) g.n, g.nodeWeight u ∧
    (∀ u, u < g'.n → g.nodeWeight u ≤ g'.maxNw) ∧ (0 < g'.n → ∃ u, u < g'.n ∧ g'.maxNw = g.nodeWeight u) := by
  have hnode : ∀ u, u < g.n → g.nodeWeight u = weightAt g.nw u := fun u hu => choose_eq hg.weights hg.totalNw hu
  have hsplit : ∀ k, k ≤ g.n → ∑ u ∈ range g.n, weightAt g.nw u =
      ∑ u ∈ range (g.n - k), weightAt g.nw u + ∑ u ∈ Ico (g.n - k) g.n, g.nodeWeight u := by
    intro k _
    rw [← Finset.sum_range_add_sum_Ico _ (show g.n - k ≤ g.n by omega)]
    congr 1
    apply Finset.sum_congr rfl
    intro u hu
    rw [hnode u (Finset.mem_Ico.1 hu).2]
  intro g'
  -- the array of node weights of the smaller graph
  obtain ⟨nw', hnw', hsum', hmax', hn', hadj', hdeg', hm', hte', hnw1, hnw2⟩ : ∃ nw' : Arr Int, Weights nw' (g.n - num) ∧
      g'.totalNw = ∑ u ∈ range (g.n - num), weightAt nw' u ∧ (g'.maxNw = if nw'.size = 0 then 1 else seqMax nw') ∧
      g'.n = g.n - num ∧ (∀ u, g'.adjacentNodes u = g.adjacentNodes u) ∧ (∀ u, g'.degree u = g.degree u) ∧
      g'.m = g.m ∧ g'.totalEw = g.totalEw ∧ g'.nw = nw' ∧ (∀ u, u < g.n - num → weightAt nw' u = weightAt g.nw u) := by
    by_cases h0 : num = 0
    · subst h0
      exact ⟨g.nw, hg.weights, hg.totalNw, hg.maxNw, rfl, fun _ => rfl, fun _ => rfl, rfl, rfl, rfl, fun _ _ => rfl⟩
    · have hr : g' = _ := remove_eq w g h0
      have hW : Weights (if g.nw.size ≠ 0 then g.nw.restrict (g.n - num) else g.nw) (g.n - num) := by
        have := hg.weights
        split
        · rename_i hne
          refine ⟨Or.inr rfl, fun i hi => this.2 i ?_⟩
          have hi : i < g.n - num := hi
          rw [this.1.resolve_left hne]; omega
        · rename_i hz
          have hz : g.nw.size = 0 := by omega
          exact ⟨Or.inl hz, this.2⟩
      refine ⟨if g.nw.size ≠ 0 then g.nw.restrict (g.n - num) else g.nw, hW, ?_, ?_, ?_, ?_, ?_, ?_, ?_, ?_, ?_⟩
      · rw [hr]; exact seqTotal_eq hW
      · rw [hr]
      · rw [hr]; rfl
      · intro u; rw [hr]; rfl
      · intro u; rw [hr]; rfl
      · rw [hr]; rfl
      · rw [hr]
      · rw [hr]
      · intro u hu
        unfold weightAt
        by_cases hz : g.nw.size = 0
        · simp [hz]
        · have : (g.nw.restrict (g.n - num)).size ≠ 0 := by show g.n - num ≠ 0; omega
          simp only [ne_eq, hz, not_false_eq_true, if_true, this, if_false]
          rfl
  have hnode' : ∀ u, u < g.n - num → g'.nodeWeight u = weightAt g.nw u := by
    intro u hu
    rw [← hnw2 u hu, G.nodeWeight, G.isNodeWeighted, hn', hnw1]
    exact choose_eq hnw' hsum' hu
  have hsum2 : g'.totalNw = ∑ u ∈ range (g.n - num), weightAt g.nw u := by
    rw [hsum']
    exact Finset.sum_congr rfl fun u hu => hnw2 u (Finset.mem_range.1 hu)
  have hmx := seqMaxW_spec hnw'
  rw [hn']
  refine ⟨rfl, hm', hte', fun u hu => ⟨hadj' u, hdeg' u, by rw [hnode' u hu, hnode u (by omega)]⟩, ?_, ?_, ?_, ?_⟩
  · rw [hsum2]
    exact Finset.sum_congr rfl fun u hu => (hnode u (by have := Finset.mem_range.1 hu; omega)).symm
  · rw [hsum2, hg.totalNw, hsplit num hnum]
  · intro u hu
    rw [hmax', hnode u (by omega), ← hnw2 u hu]
    exact hmx.1 u hu
  · intro hpos
    obtain ⟨u, hu, h⟩ := hmx.2 hpos
    exact ⟨u, hu, by rw [hmax', hnode u (by omega), ← hnw2 u hu]; exact h⟩

/-- For a monotone function, the position where the values reach `i`. -/
theorem count_below_mono {f : Nat → Nat} {i : Nat} : ∀ {n : Nat}, (∀ u v, u ≤ v → v < n → f u ≤ f v) → ∀ u, u < n →
    ((List.range n).countP (fun v => f v < i) ≤ u ↔ i ≤ f u)
  | 0, _, u, hu => by omega
  | n + 1, hm, u, hu => by
    have ih := count_below_mono (f := f) (i := i) (n := n) fun a b h1 h2 => hm a b h1 (by omega)
    rw [List.range_succ, List.countP_append, List.countP_singleton]
    have hle := List.countP_le_length (p := fun v => decide (f v < i)) (l := List.range n)
    rw [List.length_range] at hle
    by_cases hun : u = n
    · subst hun
      by_cases h : f u < i
      · have hall : (List.range u).countP (fun v => decide (f v < i)) = u := by
          rw [List.countP_eq_length.2, List.length_range]
          intro v hv
          have := hm v u (by have := List.mem_range.1 hv; omega) (by omega)
          exact decide_eq_true (by omega)
        rw [hall]
        simp [h]
      · simp only [decide_eq_true_eq, h, if_false, Nat.add_zero]
        exact ⟨fun _ => by omega, fun _ => hle⟩
    · have := ih u (by omega)
      by_cases h : f n < i
      · have hu2 := hm u n (by omega) (by omega)
        have hall : (List.range n).countP (fun v => decide (f v < i)) = n := by
          rw [List.countP_eq_length.2, List.length_range]
          intro v hv
          have := hm v n (by have := List.mem_range.1 hv; omega) (by omega)
          exact decide_eq_true (by omega)
        rw [hall]
        simp only [decide_eq_true_eq, h, if_true]
        omega
      · simp only [decide_eq_true_eq, h, if_false, Nat.add_zero]
        exact this

/-- **C23, degree buckets after the removal.**  If the isolated nodes are the last `num` nodes and the others are
ordered by degree bucket, then after the removal the range of bucket `b` consists of exactly the remaining nodes
of that degree bucket, and the number of buckets is one more than the largest bucket of a node (0 if no node is
left). -/
theorem C23_buckets_after_removal (w : Nat) (g : G) (hg : Sorted w g) (num : Nat) (hpos : 0 < num) (hnum : num ≤ g.n)
    (hlast : ∀ u, u < g.n → (g.degree u = 0 ↔ g.n - num ≤ u))
    (hsorted : ∀ u v, u ≤ v → v < g.n - num → bucketIdx (g.degree u) ≤ bucketIdx (g.degree v)) :
    let g' := g.removeIsolated w num
    (∀ u, u < g'.n → ∀ b, 1 ≤ b → b + 1 < bucketsSize →
      ((g'.firstNodeInBucket b ≤ u ∧ u < g'.firstInvalidNodeInBucket b) ↔ bucketIdx (g'.degree u) = b)) ∧
    (∀ u, u < g'.n → bucketIdx (g'.degree u) < g'.numBuckets) ∧
    (if g'.n = 0 then g'.numBuckets = 0 else ∃ u, u < g'.n ∧ bucketIdx (g'.degree u) + 1 = g'.numBuckets) := by
  intro g'
  have hr : g' = _ := remove_eq w g (by omega)
  have hn' : g'.n = g.n - num := by rw [hr]; rfl
  have hdeg' : ∀ u, g'.degree u = g.degree u := fun u => by rw [hr]; rfl
  have hbk : ∀ i, 1 ≤ i → i < bucketsSize →
      g'.buckets i = (List.range (g.n - num)).countP fun u => bucketIdx (g.degree u) < i := by
    intro i h1 hi
    rw [hr]
    show (if 0 < i ∧ i < bucketsSize then subW w (g.buckets i) num else g.buckets i) = _
    rw [if_pos ⟨h1, hi⟩, hg.buckets i hi]
    have hsplit := List.range'_append (s := 0) (m := g.n - num) (n := num) (step := 1)
    simp only [Nat.one_mul, Nat.zero_add] at hsplit
    have hall : (List.range' (g.n - num) num).countP (fun u => decide (bucketIdx (g.degree u) < i)) = num := by
      rw [List.countP_eq_length.2, List.length_range']
      intro u hu
      have hu := List.mem_range'_1.1 hu
      have : g.degree u = 0 := (hlast u (by omega)).2 hu.1
      exact decide_eq_true (by rw [this]; exact h1)
    rw [List.range_eq_range' (n := g.n), show g.n = g.n - num + num by omega, ← hsplit, List.countP_append, hall,
      ← List.range_eq_range', show g.n - num + num - num = g.n - num by omega]
    have hle := List.countP_le_length (p := fun u => decide (bucketIdx (g.degree u) < i)) (l := List.range (g.n - num))
    rw [List.length_range] at hle
    have := hg.width
    rw [subW_of_le (by omega) (by omega)]
    omega
  obtain ⟨hb0, hb1, u0, hu0, hb2⟩ := hg.numBuckets
  have hnb : g'.numBuckets = if g.numBuckets = 1 then 0 else g.numBuckets := by rw [hr]
  have hpos1 : ∀ u, u < g.n - num → 1 ≤ bucketIdx (g.degree u) := by
    intro u hu
    have h0 : g.degree u ≠ 0 := fun h => by have := (hlast u (by omega)).1 h; omega
    have := bucketIdx_zero (hg.degrees u (by omega))
    omega
  refine ⟨?_, ?_, ?_⟩
  · intro u hu b hb1 hb2
    rw [hn'] at hu
    have h1 := count_below_mono (i := b) hsorted u hu
    have h2 := count_below_mono (i := b + 1) hsorted u hu
    show (g'.buckets b ≤ u ∧ u < g'.buckets (b + 1)) ↔ _
    rw [hbk b hb1 (by omega), hbk (b + 1) (by omega) hb2, hdeg' u, h1]
    constructor
    · rintro ⟨h3, h4⟩
      have : ¬ (b + 1 ≤ bucketIdx (g.degree u)) := fun h => by have := h2.2 h; omega
      omega
    · intro h3
      refine ⟨by omega, ?_⟩
      by_contra h4
      have := h2.1 (by omega)
      omega
  · intro u hu
    rw [hn'] at hu
    rw [hdeg', hnb]
    have := hb1 u (by omega)
    have := hpos1 u hu
    rw [if_neg (by omega)]
    exact hb1 u (by omega)
  · rw [hn', hnb]
    split
    · rename_i hz
      have h0 : g.degree u0 = 0 := (hlast u0 hu0).2 (by omega)
      have : bucketIdx (g.degree u0) = 0 := by rw [h0]; rfl
      rw [if_pos (by omega)]
    · rename_i hz
      have h1 := hb1 0 (by omega)
      have h2 := hpos1 0 (by omega)
      have hu0' : u0 < g.n - num := by
        by_contra hge
        have h0 : g.degree u0 = 0 := (hlast u0 hu0).2 (by omega)
        have : bucketIdx (g.degree u0) = 0 := by rw [h0]; rfl
        omega
      exact ⟨u0, hu0', by rw [hdeg', if_neg (by omega)]; exact hb2⟩

/-- The example graph: an edge and an isolated node, sorted. -/
def exampleSorted : Option G :=
  build (-2147483648) (.owned (fun u => [0, 1, 2, 2].getD u 0) 4) (.owned (fun e => [1, 0].getD e 0) 2)
    (.owned (fun u => [4, 3, 2].getD u 0) 3) (.owned (fun _ => 0) 0) true
    ⟨.join (.body [(0, 1)]) (.body [(1, 3)]), .body [], .body [(0, 3)]⟩

/-- Non-vacuity of C23: the example graph is `Sorted`, its last node is isolated. -/
example : ∃ g, exampleSorted = some g ∧ Sorted 32 g ∧ g.countIsolated = 1 ∧
    (∀ u, u < g.n → (g.degree u = 0 ↔ g.n - 1 ≤ u)) ∧ g.totalNw = 9 ∧ (g.removeIsolated 32 1).totalNw = 7 := by
  have hsome : exampleSorted.isSome = true := by decide +kernel
  obtain ⟨g, hg⟩ := Option.isSome_iff_exists.1 hsome
  have hall : (exampleSorted.map fun g => (g.countIsolated, (g.n, (List.range 3).map g.degree), g.totalNw,
      (g.removeIsolated 32 1).totalNw)) = some (1, (3, [1, 1, 0]), 9, 7) := by decide +kernel
  rw [hg] at hall
  simp only [Option.map_some, Option.some.injEq, Prod.mk.injEq] at hall
  obtain ⟨h1, ⟨h2, h3⟩, h4, h5⟩ := hall
  refine ⟨g, hg, ?_, h1, ?_, h4, h5⟩
  · refine build_sorted hg (by decide) ⟨rfl, rfl⟩ (by decide) ⟨Or.inr rfl, by decide⟩ (by decide) (by decide)
      (by decide) (by decide) (by unfold Sched.covers; decide)
  · have hd : g.degree 0 = 1 ∧ g.degree 1 = 1 ∧ g.degree 2 = 0 := by
      simpa [List.range_succ] using h3
    intro u hu
    rw [h2] at hu ⊢
    rcases u with _ | _ | _ | u
    · rw [hd.1]; decide
    · rw [hd.2.1]; decide
    · rw [hd.2.2]; decide
    · omega

/-- **C23, negative.**  Before the removal the bucket ranges of a sorted graph with isolated nodes are shifted: the
nodes are ordered with the isolated ones last, but the buckets count them first.  Here the range of bucket 0
is the non-isolated node 0. -/
theorem C23_buckets_shifted_before_removal :
    (exampleSorted.map fun g => (g.firstNodeInBucket 0, g.firstInvalidNodeInBucket 0, bucketIdx (g.degree 0))) =
      some (0, 1, 1) := by
  decide +kernel

/-- **C23, negative.**  A sorted graph without isolated nodes over memory of the caller loses all its nodes when the
isolated nodes are re-integrated, because such arrays do not record their unrestricted size. -/
theorem C23_borrowed_arrays_lose_nodes :
    ((build (-2147483648) (.span (fun u => u) 3) (.span (fun e => 1 - e) 2) (.owned (fun _ => 0) 0)
      (.owned (fun _ => 0) 0) true ⟨.body [], .body [], .body [(0, 2)]⟩).map fun g =>
        (g.nodes.size, ((g.removeIsolated 32 0).integrateIsolated 32).1.nodes.size)) = some (3, 0) := by
  decide +kernel

end Verif.CsrGraph
