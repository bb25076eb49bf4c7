import Verif.Dist.KWay
import Verif.Dist.GlobalLPProps
import Verif.Dist.BatchedLPProps
import Verif.Dist.DistributeProps
import Verif.Dist.ReplicateProps
import Verif.Dist.ShiftLevel

/-!
# Sizes of quotient graphs
-/

namespace Verif.Dist
open Verif

variable {dist cdist : List Nat} {inp cinp : Nat → Input} {g cg : Nat → DGraph} {Wt : Nat → Int} {P : Nat → Nat}

theorem neighbours_length {p : Nat} {i : Input} (V : Valid dist p i) :
    ((List.range (localN dist p)).map fun u => (i.neighbours u).length).sum = i.adjncy.length := by
  have key : ∀ k, k ≤ localN dist p → ((List.range k).map fun u => (i.neighbours u).length).sum = i.xadj.getD k 0 := by
    intro k
    induction k with
    | zero => intro _; rw [V.xadj_zero]; rfl
    | succ k ih =>
      intro hk
      have := V.xadj_sorted k (by omega)
      rw [List.range_succ, List.map_append, List.sum_append, ih (by omega)]
      unfold Input.neighbours
      simp only [List.map_cons, List.map_nil, List.sum_cons, List.sum_nil, List.length_map, List.length_range']
      omega
  rw [key _ (Nat.le_refl _), V.xadj_last]

theorem edges_length (V : ∀ p, p < procs dist → Valid dist p (inp p)) : (edges dist inp).length = globalM dist inp := by
  unfold edges globalM
  rw [List.length_flatMap]
  congr 1
  refine List.map_congr_left fun p hp => ?_
  rw [← neighbours_length (V p (List.mem_range.1 hp)), List.length_flatMap]
  congr 1
  exact List.map_congr_left fun u _ => List.length_map ..

/-- A quotient graph does not have more edges. -/
theorem quotient_edges_le (Q : Quotient dist inp Wt P cdist cinp) (hc : 0 < procs cdist) (V : ∀ p, p < procs cdist → Valid cdist p (cinp p))
    (V0 : ∀ p, p < procs dist → Valid dist p (inp p)) : globalM cdist cinp ≤ globalM dist inp := by
  rw [← edges_length V, ← edges_length V0]
  have hn : ((edges cdist cinp).map fun e => (e.1, e.2.1)).Nodup := by
    refine List.Nodup.map_on ?_ (edges_nodup V Q.once)
    rintro ⟨a, b, w⟩ h1 ⟨a', b', w'⟩ h2 he
    obtain ⟨rfl, rfl⟩ := Prod.mk.inj he
    rw [((quotient_mem Q hc V).1 h1).2.2.2, ((quotient_mem Q hc V).1 h2).2.2.2]
  have hs : ((edges cdist cinp).map fun e => (e.1, e.2.1)) ⊆ (edges dist inp).map fun e => (P e.1, P e.2.1) := by
    intro y hy
    obtain ⟨⟨a, b, w⟩, h1, rfl⟩ := List.mem_map.1 hy
    obtain ⟨e, he, rfl, rfl⟩ := between_mem.1 ((quotient_mem Q hc V).1 h1).2.2.1
    exact List.mem_map.2 ⟨e, he, rfl⟩
  have := (hn.subperm hs).length_le
  rwa [List.length_map, List.length_map] at this

theorem quotient_nonneg (Q : Quotient dist inp Wt P cdist cinp) (hc : 0 < procs cdist) (V : ∀ p, p < procs cdist → Valid cdist p (cinp p))
    (h : NonnegEdges dist inp) : NonnegEdges cdist cinp := by
  rintro ⟨a, b, w⟩ he
  show 0 ≤ w
  rw [((quotient_mem Q hc V).1 he).2.2.2]
  refine sum_nonneg fun x hx => ?_
  obtain ⟨e, he, rfl⟩ := List.mem_map.1 hx
  exact h e (List.mem_filter.1 he).1

theorem quotient_loopFree (Q : Quotient dist inp Wt P cdist cinp) (hc : 0 < procs cdist) (V : ∀ p, p < procs cdist → Valid cdist p (cinp p)) :
    LoopFree cdist cinp := by
  rintro ⟨a, b, w⟩ he
  exact Ne.symm ((quotient_mem Q hc V).1 he).2.1

/-- The edges of a quotient graph are not heavier altogether. -/
theorem quotient_total_le (Q : Quotient dist inp Wt P cdist cinp) (hc : 0 < procs cdist) (V : ∀ p, p < procs cdist → Valid cdist p (cinp p))
    (V0 : ∀ p, p < procs dist → Valid dist p (inp p)) (hP : ∀ a, a < globalN dist → P a < globalN cdist) (h : NonnegEdges dist inp) :
    ((edges cdist cinp).map (·.2.2)).sum ≤ ((edges dist inp).map (·.2.2)).sum := by
  have h1 := quotient_directed Q V hc V0 hP fun x => x
  have h2 : (edges cdist cinp).map (fun e => if e.1 ≠ e.2.1 then e.2.2 else 0) = (edges cdist cinp).map (·.2.2) :=
    List.map_congr_left fun e he => if_pos (quotient_loopFree Q hc V e he)
  rw [h2] at h1
  rw [h1]
  refine List.sum_le_sum fun e he => ?_
  have := h e he
  split <;> omega

/-- A quotient graph does not have more nodes. -/
theorem quotient_nodes_le {n m : Nat} {f : Nat → Nat} (h : ∀ x, x < m → ∃ a, a < n ∧ f a = x) : m ≤ n := by
  have hs : List.range m ⊆ (List.range n).map f := by
    intro x hx
    obtain ⟨a, ha, rfl⟩ := h x (List.mem_range.1 hx)
    exact List.mem_map.2 ⟨a, List.mem_range.2 ha, rfl⟩
  have := (List.nodup_range.subperm hs).length_le
  rwa [List.length_map, List.length_range, List.length_range] at this

theorem quotient_weight (hP : ∀ a, a < globalN dist → P a < globalN cdist) :
    ((List.range (globalN cdist)).map (blockWeight dist Wt P)).sum = ((List.range (globalN dist)).map Wt).sum :=
  sum_groups (ks := List.range (globalN cdist)) List.nodup_range P Wt (List.range (globalN dist))
    fun a ha => List.mem_range.2 (hP a (List.mem_range.1 ha))

/-- All edges together are heavy enough for the edges of each node. -/
theorem small_degrees (h : NonnegEdges dist inp) (hs : ((edges dist inp).map (·.2.2)).sum < 2 ^ 31) : SmallDegrees dist inp := by
  intro p hp u hu
  refine lt_of_le_of_lt ?_ hs
  rw [← edges_sum (fun _ _ w => w)]
  have hnn : ∀ q, q < procs dist → ∀ v, v < localN dist q → ∀ x, x ∈ (inp q).neighbours v → 0 ≤ x.2 :=
    fun q hq v hv x hx => h _ (mem_edges hq hv hx)
  have h1 : ((inp p).neighbours u).map (fun x => |x.2|) = ((inp p).neighbours u).map fun x => x.2 :=
    List.map_congr_left fun x hx => abs_of_nonneg (hnn p hp u hu x hx)
  rw [h1]
  have hin : ∀ q, q < procs dist → ∀ v, v < localN dist q → 0 ≤ (((inp q).neighbours v).map fun x => x.2).sum := by
    intro q hq v hv
    refine sum_nonneg fun y hy => ?_
    obtain ⟨x, hx, rfl⟩ := List.mem_map.1 hy
    exact hnn q hq v hv x hx
  have h2 := List.single_le_sum (l := (List.range (localN dist p)).map fun v => (((inp p).neighbours v).map fun x => x.2).sum)
    (fun y hy => by obtain ⟨v, hv, rfl⟩ := List.mem_map.1 hy; exact hin p hp v (List.mem_range.1 hv)) _
    (List.mem_map.2 ⟨u, List.mem_range.2 hu, rfl⟩)
  have h3 := List.single_le_sum (l := (List.range (procs dist)).map fun q => ((List.range (localN dist q)).map fun v =>
      (((inp q).neighbours v).map fun x => x.2).sum).sum)
    (fun y hy => by
      obtain ⟨q, hq, rfl⟩ := List.mem_map.1 hy
      refine sum_nonneg fun z hz => ?_
      obtain ⟨v, hv, rfl⟩ := List.mem_map.1 hz
      exact hin q (List.mem_range.1 hq) v (List.mem_range.1 hv)) _
    (List.mem_map.2 ⟨p, List.mem_range.2 hp, rfl⟩)
  exact le_trans h2 h3

/-- The nodes and ghost nodes of all processes. -/
theorem World.total_nodes (W : World dist inp g) :
    ((List.range (procs dist)).map fun p => (g p).totalN).sum ≤ globalN dist + globalM dist inp := by
  have V := W.valid 0 W.some_process
  have h1 := globalN_sum V.zero (fun q hq => V.sorted q hq) _ (Nat.le_refl (procs dist))
  have h2 : globalN dist = ((List.range (procs dist)).map (localN dist)).sum := h1.symm
  unfold globalM
  rw [h2, ← List.sum_map_add]
  refine List.sum_le_sum fun p hp => ?_
  rw [(W.represents p (List.mem_range.1 hp)).total]
  have : (foreign dist p (inp p)).length ≤ (inp p).adjncy.length := by
    unfold foreign
    exact le_trans (List.dedup_sublist _).length_le (List.length_filter_le _ _)
  omega

end Verif.Dist
