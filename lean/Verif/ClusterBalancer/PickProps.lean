import Mathlib.Data.List.Perm.Basic
import Mathlib.Algebra.BigOperators.Group.List.Basic
import Mathlib.Data.List.Nodup
import Verif.ClusterBalancer.Pick
import Verif.NodeBalancer.Rounds

/-!
# C92: candidates for sequential rounds of the cluster balancer

The best clusters of every overloaded block are picked with their actual gains, and the queues and buckets stay exact.
-/

namespace Verif.ClusterBalancer
open Verif List

/-! ## What is expected -/

/-- The largest element of a queue. -/
def PickIn.TopMax (I : PickIn) : Prop := ∀ q, q ≠ [] → ∃ e, q[I.top q]? = some e ∧ ∀ x ∈ q, x.2 ≤ e.2

/-- The weight of the clusters of a queue whose gains are in a bucket. -/
def bucketSum (I : PickIn) (q : List (Nat × Int)) (i : Nat) : Int := (q.map fun x => if I.bucket x.2 = i then I.weight x.1 else 0).sum

/-! ## One block -/

section

variable {I : PickIn}

theorem bucketSum_cons (x : Nat × Int) (q : List (Nat × Int)) (i : Nat) :
    bucketSum I (x :: q) i = (if I.bucket x.2 = i then I.weight x.1 else 0) + bucketSum I q i := by simp [bucketSum]

theorem bucketSum_perm {q q' : List (Nat × Int)} (h : q ~ q') (i : Nat) : bucketSum I q i = bucketSum I q' i := (h.map _).sum_eq

theorem addBucket_at (b : Nat → Int) (x : Nat × Int) (i : Nat) : addBucket I b x i = (if I.bucket x.2 = i then I.weight x.1 else 0) + b i := by
  unfold addBucket
  by_cases h : i = I.bucket x.2
  · subst h; rw [upd_same, if_pos rfl]; omega
  · rw [upd_ne _ _ h, if_neg (Ne.symm h)]; omega

theorem removeBucket_at (b : Nat → Int) (x : Nat × Int) (i : Nat) : removeBucket I b x i = b i - if I.bucket x.2 = i then I.weight x.1 else 0 := by
  unfold removeBucket
  by_cases h : i = I.bucket x.2
  · subst h; rw [upd_same, if_pos rfl]
  · rw [upd_ne _ _ h, if_neg (Ne.symm h)]; omega

/-- The state in the loop for queue `q0`. -/
structure PickInv (I : PickIn) (q0 : List (Nat × Int)) (s : Picked) : Prop where
  ids : (s.queue ++ s.cands).map Prod.fst ~ q0.map Prod.fst
  buckets : ∀ i, s.buckets i = bucketSum I s.queue i
  gains : ∀ c ∈ s.cands, c.2 = I.gain c.1
  keys : ∀ x ∈ s.queue, x ∈ q0 ∨ x.2 = I.gain x.1
  best : ∀ x ∈ s.queue, ∀ c ∈ s.cands, x.2 ≤ c.2

/-- The number of clusters whose key is larger than their gain. -/
def stale (I : PickIn) (q : List (Nat × Int)) : Nat := q.countP fun x => decide (I.gain x.1 < x.2)

theorem pickLoop_spec (ht : I.TopMax) {q0 : List (Nat × Int)} : ∀ (fuel m : Nat) (s : Picked), PickInv I q0 s → m + stale I s.queue ≤ fuel →
    ∃ r, pickLoop? I fuel m s = some r ∧ PickInv I q0 r ∧ (r.cands.length = m + s.cands.length ∨ (r.queue = [] ∧ r.cands.length ≤ m + s.cands.length))
  | fuel, 0, s, hi, _ => ⟨s, by cases fuel <;> rfl, hi, .inl (by omega)⟩
  | 0, m + 1, s, hi, hf => by omega
  | fuel + 1, m + 1, s, hi, hf => by
    unfold pickLoop?
    by_cases hq : s.queue = []
    · rw [if_pos hq]
      exact ⟨s, rfl, hi, .inr ⟨hq, by omega⟩⟩
    · rw [if_neg hq]
      obtain ⟨e, he, hmax⟩ := ht s.queue hq
      rw [he, Option.bind_some]
      dsimp only
      obtain ⟨hlt, hel⟩ := List.getElem?_eq_some_iff.1 he
      have hp : e :: s.queue.eraseIdx (I.top s.queue) ~ s.queue := by
        have := List.getElem_cons_eraseIdx_perm hlt
        rwa [hel] at this
      generalize s.queue.eraseIdx (I.top s.queue) = q at hp
      have hmem : ∀ x ∈ q, x ∈ s.queue := fun x hx => hp.subset (List.mem_cons_of_mem _ hx)
      have hee : e ∈ s.queue := hp.subset List.mem_cons_self
      have hst : stale I s.queue = stale I q + if I.gain e.1 < e.2 then 1 else 0 := by
        unfold stale
        rw [← hp.countP_eq, List.countP_cons]
        simp
      have hb : ∀ i, removeBucket I s.buckets e i = bucketSum I q i := fun i => by
        rw [removeBucket_at, hi.buckets, ← bucketSum_perm hp, bucketSum_cons]
        omega
      by_cases hg : I.gain e.1 ≥ e.2
      · rw [if_pos hg]
        obtain ⟨r, r1, r2, r3⟩ := pickLoop_spec ht fuel m ⟨q, removeBucket I s.buckets e, s.cands ++ [(e.1, I.gain e.1)]⟩
          ⟨by
            refine Perm.trans ?_ ((hp.append_right s.cands).map Prod.fst |>.trans hi.ids)
            show map Prod.fst (q ++ (s.cands ++ [(e.1, I.gain e.1)])) ~ _
            simp only [List.map_append, List.map_cons, List.map_nil, List.cons_append]
            rw [← List.append_assoc]
            exact List.perm_append_singleton _ _, hb, fun c hc => by
            rcases List.mem_append.1 hc with h | h
            · exact hi.gains c h
            · rw [List.mem_singleton.1 h], fun x hx => hi.keys x (hmem x hx), fun x hx c hc => by
            rcases List.mem_append.1 hc with h | h
            · exact hi.best x (hmem x hx) c h
            · rw [List.mem_singleton.1 h]
              exact Int.le_trans (hmax x (hmem x hx)) hg⟩ (by
            show m + stale I q ≤ fuel
            rw [hst, if_neg (by omega)] at hf
            omega)
        refine ⟨r, r1, r2, ?_⟩
        have el : (s.cands ++ [(e.1, I.gain e.1)]).length = s.cands.length + 1 := by simp
        dsimp only at r3
        rw [el] at r3
        rcases r3 with h | ⟨h1, h2⟩
        · exact .inl (by omega)
        · exact .inr ⟨h1, by omega⟩
      · rw [if_neg hg]
        obtain ⟨r, r1, r2, r3⟩ := pickLoop_spec ht fuel (m + 1)
          ⟨(e.1, I.gain e.1) :: q, addBucket I (removeBucket I s.buckets e) (e.1, I.gain e.1), s.cands⟩
          ⟨((hp.append_right s.cands).map Prod.fst).trans hi.ids, fun i => by
            show addBucket I _ _ i = bucketSum I (_ :: q) i
            rw [addBucket_at, hb, bucketSum_cons], hi.gains, fun x hx => by
            rcases List.mem_cons.1 hx with rfl | h
            · exact .inr rfl
            · exact hi.keys x (hmem x h), fun x hx c hc => by
            rcases List.mem_cons.1 hx with rfl | h
            · have := hi.best e hee c hc
              show I.gain e.1 ≤ c.2
              omega
            · exact hi.best x (hmem x h) c hc⟩ (by
            show m + 1 + stale I ((e.1, I.gain e.1) :: q) ≤ fuel
            have : stale I ((e.1, I.gain e.1) :: q) = stale I q := by
              unfold stale
              rw [List.countP_cons]
              simp
            rw [this]
            rw [hst, if_pos (by omega)] at hf
            omega)
        exact ⟨r, r1, r2, r3⟩

theorem putBack_eq (s : Picked) : (putBack I s).cands = s.cands ∧ (putBack I s).queue ~ s.queue ++ s.cands ∧
    ((∀ i, s.buckets i = bucketSum I s.queue i) → ∀ i, (putBack I s).buckets i = bucketSum I (putBack I s).queue i) := by
  have key : ∀ (l : List (Nat × Int)) (s : Picked),
      (l.foldl (fun s x => { s with queue := x :: s.queue, buckets := addBucket I s.buckets x }) s).cands = s.cands ∧
      (l.foldl (fun s x => { s with queue := x :: s.queue, buckets := addBucket I s.buckets x }) s).queue ~ s.queue ++ l ∧
      ((∀ i, s.buckets i = bucketSum I s.queue i) → ∀ i, (l.foldl (fun s x => { s with queue := x :: s.queue, buckets := addBucket I s.buckets x }) s).buckets i =
        bucketSum I (l.foldl (fun s x => { s with queue := x :: s.queue, buckets := addBucket I s.buckets x }) s).queue i) := by
    intro l
    induction l with
    | nil => intro s; exact ⟨rfl, by simp, fun h => h⟩
    | cons x l ih =>
      intro s
      rw [List.foldl_cons]
      obtain ⟨h1, h2, h3⟩ := ih { s with queue := x :: s.queue, buckets := addBucket I s.buckets x }
      refine ⟨h1, h2.trans ?_, fun h => h3 fun i => ?_⟩
      · exact List.perm_middle.symm
      · show addBucket I s.buckets x i = bucketSum I (x :: s.queue) i
        rw [addBucket_at, bucketSum_cons, h]
  exact key s.cands s

/-- **C92, one block.**  If the queue has no cluster twice and the buckets are exact, then the loop ends, and as many clusters of the queue as allowed
are picked, different ones with their actual gains.  Afterwards the queue has the same clusters as before, with their old keys or their actual
gains, and the buckets are exact.  If no key was smaller than the actual gain, then no cluster that is not picked has a larger gain than a picked one. -/
theorem C92_block (ht : I.TopMax) {queue : List (Nat × Int)} {buckets : Nat → Int} (hn : (queue.map Prod.fst).Nodup)
    (hb : ∀ i, buckets i = bucketSum I queue i) :
    ∃ r, pickBlock? I queue buckets = some r ∧ r.cands.length = min I.limit queue.length ∧ (r.cands.map Prod.fst).Nodup ∧
      (∀ c ∈ r.cands, c.1 ∈ queue.map Prod.fst ∧ c.2 = I.gain c.1) ∧ r.queue.map Prod.fst ~ queue.map Prod.fst ∧
      (∀ x ∈ r.queue, x ∈ queue ∨ x.2 = I.gain x.1) ∧ (∀ i, r.buckets i = bucketSum I r.queue i) ∧
      ((∀ x ∈ queue, I.gain x.1 ≤ x.2) → ∀ u ∈ queue.map Prod.fst, u ∉ r.cands.map Prod.fst → ∀ c ∈ r.cands, I.gain u ≤ I.gain c.1) := by
  obtain ⟨r, h1, h2, h3⟩ := pickLoop_spec ht (q0 := queue) (I.limit + queue.length) I.limit ⟨queue, buckets, []⟩
    ⟨by simp, hb, by simp, fun x hx => .inl hx, by simp⟩ (by
      have : stale I queue ≤ queue.length := List.countP_le_length
      show I.limit + stale I queue ≤ _
      omega)
  obtain ⟨p1, p2, p3⟩ := putBack_eq (I := I) r
  have hids := h2.ids
  have hlen : r.queue.length + r.cands.length = queue.length := by simpa using hids.length_eq
  have hnod : ((r.queue ++ r.cands).map Prod.fst).Nodup := hids.nodup_iff.2 hn
  rw [List.map_append] at hnod hids
  refine ⟨putBack I r, by unfold pickBlock?; rw [h1]; rfl, ?_, ?_, ?_, ?_, ?_, p3 h2.buckets, ?_⟩
  · rw [p1]
    simp only [List.length_nil, Nat.add_zero] at h3
    rcases h3 with h | ⟨h, h'⟩
    · omega
    · rw [h] at hlen
      simp only [List.length_nil, Nat.zero_add] at hlen
      omega
  · rw [p1]
    exact (List.nodup_append.1 hnod).2.1
  · rw [p1]
    exact fun c hc => ⟨hids.subset (List.mem_append_right _ (List.mem_map_of_mem hc)), h2.gains c hc⟩
  · refine (p2.map Prod.fst).trans ?_
    rw [List.map_append]
    exact hids
  · intro x hx
    rcases List.mem_append.1 (p2.subset hx) with h | h
    · exact h2.keys x h
    · exact .inr (h2.gains x h)
  · rw [p1]
    intro hup u hu hnot c hc
    rcases List.mem_append.1 (hids.mem_iff.2 hu) with h | h
    · obtain ⟨x, hx, rfl⟩ := List.mem_map.1 h
      have h5 := h2.best x hx c hc
      rw [h2.gains c hc] at h5
      have h6 : I.gain x.1 ≤ x.2 := by
        rcases h2.keys x hx with h | h
        · exact hup x h
        · exact Int.le_of_eq h.symm
      omega
    · exact absurd h hnot

/-! ## All blocks -/

/-- **C92.**  If no queue has a cluster twice and the buckets are exact, the call ends, there is a result as in `C92_block` for each overloaded
block, and the candidates are in the order of their blocks, as the reduction needs it, with the targets of their clusters. -/
theorem C92_candidates (ht : I.TopMax) {queues : Nat → List (Nat × Int)} {buckets : Nat → Nat → Int} (hn : ∀ b, ((queues b).map Prod.fst).Nodup)
    (hb : ∀ b i, buckets b i = bucketSum I (queues b) i) :
    ∃ rs, pickAll? I queues buckets = some rs ∧ rs.map Prod.fst = (List.range I.k).filter I.over ∧
      (∀ r ∈ rs, pickBlock? I (queues r.1) (buckets r.1) = some r.2) ∧ (candidatesOf I rs).Pairwise (fun x y => x.1 ≤ y.1) ∧
      ∀ b u g t, (b, u, g, t) ∈ candidatesOf I rs ↔ b < I.k ∧ I.over b = true ∧ g = I.gain u ∧ t = I.target u ∧
        ∃ r, pickBlock? I (queues b) (buckets b) = some r ∧ (u, g) ∈ r.cands := by
  have hex : ∀ b, ∃ r, pickBlock? I (queues b) (buckets b) = some r ∧ ∀ c ∈ r.cands, c.2 = I.gain c.1 := fun b => by
    obtain ⟨r, h1, -, -, h4, -⟩ := C92_block ht (hn b) (hb b)
    exact ⟨r, h1, fun c hc => (h4 c hc).2⟩
  choose f hf hfg using hex
  refine ⟨((List.range I.k).filter I.over).map fun b => (b, f b), ?_, ?_, ?_, ?_, ?_⟩
  · exact NodeBalancer.mapM_some fun b _ => by rw [hf b]; rfl
  · rw [List.map_map]
    exact List.map_id _
  · intro r hr
    obtain ⟨b, -, rfl⟩ := List.mem_map.1 hr
    exact hf b
  · unfold candidatesOf
    rw [List.pairwise_flatMap]
    refine ⟨fun r _ => ?_, ?_⟩
    · rw [List.pairwise_map]
      exact List.pairwise_of_forall fun _ _ => Nat.le_refl _
    · rw [List.pairwise_map]
      refine ((List.pairwise_lt_range).filter _).imp fun {a b} hab x hx y hy => ?_
      obtain ⟨_, _, rfl⟩ := List.mem_map.1 hx
      obtain ⟨_, _, rfl⟩ := List.mem_map.1 hy
      exact Nat.le_of_lt hab
  · intro b u g t
    unfold candidatesOf
    constructor
    · intro h
      obtain ⟨r, hr, h⟩ := List.mem_flatMap.1 h
      obtain ⟨b', hb', rfl⟩ := List.mem_map.1 hr
      obtain ⟨c, hc, h⟩ := List.mem_map.1 h
      obtain ⟨h1, h2⟩ := List.mem_filter.1 hb'
      cases h
      exact ⟨List.mem_range.1 h1, h2, hfg _ c hc, rfl, f b', hf b', hc⟩
    · rintro ⟨h1, h2, -, rfl, r, h3, h4⟩
      rw [hf b] at h3
      cases h3
      exact List.mem_flatMap.2 ⟨(b, f b), List.mem_map.2 ⟨b, List.mem_filter.2 ⟨List.mem_range.2 h1, h2⟩, rfl⟩, List.mem_map.2 ⟨(u, g), h4, rfl⟩⟩

end

/-! ## A concrete case -/

namespace PickExample

/-- The position of the first largest key. -/
def top (q : List (Nat × Int)) : Nat := q.findIdx fun e => q.all fun x => decide (x.2 ≤ e.2)

/-- Two blocks, block 1 is overloaded; two clusters are picked.  Gains are -5, 3, 2, 4 for the clusters 0, 1, 2, 3. -/
def I : PickIn := ⟨2, fun b => b == 1, 2, fun _ => 1, fun c => if c = 0 then -5 else if c = 1 then 3 else if c = 2 then 2 else 4, fun _ => 0,
  fun g => if g ≥ 0 then 0 else 1, top⟩

/-- The key of cluster 0 is too large. -/
def queues : Nat → List (Nat × Int) := fun b => if b = 1 then [(0, 7), (1, 3), (2, 2), (3, 4)] else []

theorem exists_max : ∀ q : List (Nat × Int), q ≠ [] → ∃ e ∈ q, ∀ x ∈ q, x.2 ≤ e.2
  | [], h => absurd rfl h
  | [a], _ => ⟨a, by simp, by simp⟩
  | a :: b :: l, _ => by
    obtain ⟨e, he, hm⟩ := exists_max (b :: l) (by simp)
    by_cases h : a.2 ≤ e.2
    · exact ⟨e, List.mem_cons_of_mem _ he, fun x hx => by
        rcases List.mem_cons.1 hx with rfl | hx
        · exact h
        · exact hm x hx⟩
    · refine ⟨a, List.mem_cons_self, fun x hx => ?_⟩
      rcases List.mem_cons.1 hx with rfl | hx
      · exact Int.le_refl _
      · have := hm x hx
        omega

example : I.TopMax := by
  intro q hq
  obtain ⟨e, he, hm⟩ := exists_max q hq
  have hlt : top q < q.length := List.findIdx_lt_length_of_exists ⟨e, he, List.all_eq_true.2 fun x hx => decide_eq_true (hm x hx)⟩
  refine ⟨q[top q], List.getElem?_eq_getElem hlt, fun x hx => ?_⟩
  have := List.findIdx_getElem (w := hlt)
  exact of_decide_eq_true (List.all_eq_true.1 this x hx)

example : ∀ b, ((queues b).map Prod.fst).Nodup := by
  intro b
  unfold queues
  split <;> decide

/-- Clusters 3 and 1 are the best. -/
example : (pickAll? I queues fun b => bucketSum I (queues b)).map (candidatesOf I) = some [(1, 3, 4, 0), (1, 1, 3, 0)] := by decide +kernel

/-- Cluster 0 gets its actual gain and bucket. -/
example : (pickBlock? I (queues 1) (bucketSum I (queues 1))).map (fun r => (r.queue, r.buckets 0, r.buckets 1)) =
    some ([(1, 3), (3, 4), (0, -5), (2, 2)], 3, 1) := by decide +kernel

end PickExample

end Verif.ClusterBalancer
