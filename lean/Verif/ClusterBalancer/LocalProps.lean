import Verif.ClusterBalancer.LocalLemmas
import Verif.ClusterBalancer.Props

/-!
# C89: clusters of the label propagation

The nodes of overloaded blocks with the same label form a cluster, and the connections are those that C86 expects.
-/

namespace Verif.ClusterBalancer
open Verif

/-! ## What is expected -/

/-- The owned nodes of overloaded blocks with label `l`, in increasing order. -/
def labelled (I : LocalIn) (l : Nat) : List Nat := (List.range I.g.n).filter fun u => I.over (I.block u) && decide (I.label u = l)

/-- Nodes with the same label are in the same block. -/
def Respects (I : LocalIn) : Prop := ∀ u < I.g.n, ∀ v < I.g.n, I.label u = I.label v → I.block u = I.block v

/-- The input: labels are node IDs, and blocks exist. -/
structure LocalIn.Valid (I : LocalIn) : Prop where
  known : ∀ u < I.g.n, ∀ x ∈ I.g.adj u, x.1 < I.g.n + I.g.ghosts
  blocks : ∀ v < I.g.n + I.g.ghosts, I.block v < I.g.k
  labels : ∀ u < I.g.n, I.label u < I.g.n
  nodes : 0 < I.g.n

theorem local_eq {I : LocalIn} (V : I.Valid) (clusterOf : Nat → Option Nat) (arr idx : Nat → Nat) :
    ∃ S conns, localClusters? I clusterOf arr idx = some (S, conns) ∧
      S.members = ((List.range I.g.n).filter fun l => decide (labelled I l ≠ [])).map (labelled I) ∧
      (∀ u < I.g.n, S.clusterOf u = if I.over (I.block u) = true then some (rank I (I.label u)) else none) ∧
      (∀ l, labelled I l ≠ [] → S.members[rank I l]? = some (labelled I l)) ∧
      ∀ l, labelled I l ≠ [] → ∀ b < I.g.k, conns (rank I l * I.g.k + b) =
        (((labelled I l).flatMap I.g.adj).map fun x => if (¬ x.1 < I.g.n ∨ I.label x.1 ≠ l) ∧ I.block x.1 = b then x.2 else 0).sum := by
  have L := localLoop_inv (fun u hu x hx => V.blocks _ (V.known u hu x hx)) clusterOf arr idx
  have hn := V.nodes
  have hcount : inclusive (counts I).1 (I.g.n - 1) = rank I I.g.n := by
    unfold inclusive rank exclusive
    rw [show I.g.n - 1 + 1 = I.g.n by omega]
  refine ⟨_, _, if_neg (by omega), ?_, L.of, fun l hl => ?_, L.conns⟩
  · show (List.range (inclusive (counts I).1 (I.g.n - 1))).map _ = _
    rw [hcount]
    exact members_upto L I.g.n
  · show ((List.range (inclusive (counts I).1 (I.g.n - 1))).map _)[rank I l]? = _
    have hlt : rank I l < rank I I.g.n := by
      obtain ⟨u, hu⟩ := List.exists_mem_of_ne_nil _ hl
      have hu' := mem_sel.1 hu
      have hln : l < I.g.n := by have := V.labels u hu'.1; omega
      have h3 := (counts_at I I.g.n l).1
      rw [if_neg (show sel I I.g.n l ≠ [] from hl)] at h3
      have h4 : (counts I).1 l = 1 := h3
      have := exclusive_lt (f := (counts I).1) hln
      unfold rank
      omega
    rw [hcount, List.getElem?_map, List.getElem?_range hlt]
    exact congrArg some (sliceOf_rank L hl)

/-- **C89, the clusters.**  There is exactly one cluster for every label of a node of an overloaded block, in the order of the labels; its nodes are
the nodes of overloaded blocks with this label, in increasing order.  Whatever was in the arrays before does not matter.  Nodes of other blocks are
in no cluster, and for the other nodes the mark is the number of their cluster. -/
theorem C89_clusters {I : LocalIn} (V : I.Valid) (clusterOf : Nat → Option Nat) (arr idx : Nat → Nat) :
    ∃ S conns, localClusters? I clusterOf arr idx = some (S, conns) ∧
      S.members = ((List.range I.g.n).filter fun l => decide (labelled I l ≠ [])).map (labelled I) ∧
      (∀ u < I.g.n, I.over (I.block u) = false → S.clusterOf u = none) ∧
      ∀ u < I.g.n, I.over (I.block u) = true → ∃ c, S.clusterOf u = some c ∧ S.members[c]? = some (labelled I (I.label u)) := by
  obtain ⟨S, conns, h1, h2, h3, h4, _⟩ := local_eq V clusterOf arr idx
  refine ⟨S, conns, h1, h2, fun u hu ho => ?_, fun u hu ho => ?_⟩
  · rw [h3 u hu, if_neg (by simp [ho])]
  · refine ⟨rank I (I.label u), by rw [h3 u hu, if_pos ho], h4 _ fun h => ?_⟩
    have : u ∈ labelled I (I.label u) := mem_sel.2 ⟨hu, ho, rfl⟩
    rw [h] at this
    exact absurd this (by simp)

/-- **C89, connections.**  If nodes with the same label are in the same block, then all nodes of a cluster are in the same block and the connections
are the actual ones.  Nothing in the code ensures the hypothesis. -/
theorem C89_exact_partial {I : LocalIn} (V : I.Valid) (R : Respects I) (clusterOf : Nat → Option Nat) (arr idx : Nat → Nat) :
    ∃ S conns, localClusters? I clusterOf arr idx = some (S, conns) ∧ Clustering I.g S ∧ Blocks I.g S I.block ∧ Exact I.g S ⟨I.block, conns⟩ := by
  obtain ⟨S, conns, h1, h2, h3, h4, h5⟩ := local_eq V clusterOf arr idx
  have hmem : ∀ (c : Nat) l, S.members[c]? = some l → ∃ t, labelled I t ≠ [] ∧ l = labelled I t ∧ c = rank I t := by
    intro c l hc
    have hl : l ∈ S.members := List.mem_of_getElem? hc
    rw [h2] at hl
    obtain ⟨t, ht, rfl⟩ := List.mem_map.1 hl
    have hne : labelled I t ≠ [] := by simpa using (List.mem_filter.1 ht).2
    refine ⟨t, hne, rfl, ?_⟩
    have hnd : S.members.Nodup := by
      rw [h2]
      refine nodup_map_on ((List.nodup_range).filter _) fun a ha b _ hab => ?_
      have hane : labelled I a ≠ [] := by simpa using (List.mem_filter.1 ha).2
      obtain ⟨u, hu⟩ := List.exists_mem_of_ne_nil _ hane
      have hu2 := hu
      rw [hab] at hu2
      exact (mem_sel.1 hu).2.2.symm.trans (mem_sel.1 hu2).2.2
    have hr := h4 t hne
    obtain ⟨i1, e1⟩ := List.getElem?_eq_some_iff.1 hc
    obtain ⟨i2, e2⟩ := List.getElem?_eq_some_iff.1 hr
    exact (List.Nodup.getElem_inj_iff hnd).1 (e1.trans e2.symm)
  refine ⟨S, conns, h1, ⟨?_, ?_, ?_, ?_, ?_⟩, ⟨V.blocks, ?_⟩, ?_⟩
  · intro c l hc
    obtain ⟨t, ht, rfl, _⟩ := hmem c l hc
    exact ht
  · intro c l hc
    obtain ⟨t, ht, rfl, _⟩ := hmem c l hc
    exact (List.nodup_range).filter _
  · intro c l hc u hu
    obtain ⟨t, ht, rfl, _⟩ := hmem c l hc
    exact (mem_sel.1 hu).1
  · intro c l hc u hun
    obtain ⟨t, ht, rfl, rfl⟩ := hmem c l hc
    rw [h3 u hun]
    constructor
    · intro h
      by_cases ho : I.over (I.block u) = true
      · rw [if_pos ho] at h
        have hne : sel I I.g.n (I.label u) ≠ [] := fun hcon => by
          have : u ∈ sel I I.g.n (I.label u) := mem_sel.2 ⟨hun, ho, rfl⟩
          rw [hcon] at this
          exact absurd this (by simp)
        exact mem_sel.2 ⟨hun, ho, rank_inj I hne ht (Option.some.inj h)⟩
      · rw [if_neg ho] at h; exact absurd h (by simp)
    · intro h
      have h' := mem_sel.1 h
      rw [if_pos h'.2.1, h'.2.2]
  · intro u hun c hc
    rw [h3 u hun] at hc
    by_cases ho : I.over (I.block u) = true
    · rw [if_pos ho] at hc
      have hne : labelled I (I.label u) ≠ [] := fun hcon => by
        have : u ∈ sel I I.g.n (I.label u) := mem_sel.2 ⟨hun, ho, rfl⟩
        rw [show sel I I.g.n (I.label u) = [] from hcon] at this
        exact absurd this (by simp)
      rw [← Option.some.inj hc]
      exact (List.getElem?_eq_some_iff.1 (h4 _ hne)).1
    · rw [if_neg ho] at hc; exact absurd hc (by simp)
  · intro c l hc u hu v hv
    obtain ⟨t, ht, rfl, _⟩ := hmem c l hc
    have hu' := mem_sel.1 hu
    have hv' := mem_sel.1 hv
    exact R u hu'.1 v hv'.1 (hu'.2.2.trans hv'.2.2.symm)
  · intro c l hc b hb
    obtain ⟨t, ht, rfl, rfl⟩ := hmem c l hc
    show conns _ = connTo I.g I.block _ b
    rw [h5 t ht b hb]
    unfold connTo
    refine sum_map_congr fun x _ => ?_
    obtain ⟨w, hw⟩ := List.exists_mem_of_ne_nil _ ht
    have hw' := mem_sel.1 hw
    have hiff : x.1 ∉ labelled I t ↔ (¬ x.1 < I.g.n ∨ I.label x.1 ≠ t) := by
      rw [show x.1 ∉ labelled I t ↔ ¬ (x.1 < I.g.n ∧ I.over (I.block x.1) = true ∧ I.label x.1 = t) from not_congr mem_sel]
      constructor
      · intro h
        by_contra hcon
        rw [not_or, not_not, not_not] at hcon
        refine h ⟨hcon.1, ?_, hcon.2⟩
        rw [R x.1 hcon.1 w hw'.1 (hcon.2.trans hw'.2.2.symm)]
        exact hw'.2.1
      · rintro (h | h) h'
        · exact h h'.1
        · exact h h'.2.2
    simp only [hiff]

/-! ## Concrete cases, and labels that do not respect the blocks -/

namespace LocalExample

/-- A path 0 - 1 - 2 - 3 - 4 with weights 1, 2, 3, 4; node 4 is a ghost node. -/
def g : PGraph := ⟨4, 1, 3, fun u => match u with
  | 0 => [(1, 1)] | 1 => [(0, 1), (2, 2)] | 2 => [(1, 2), (3, 3)] | 3 => [(2, 3), (4, 4)] | _ => []⟩

/-- Blocks 0 and 2 are overloaded; the labels of nodes of different blocks are different. -/
def I : LocalIn := ⟨g, fun v => if v < 2 then 0 else if v = 2 then 1 else 2, fun b => b != 1, fun v => if v < 2 then 1 else if v = 2 then 2 else 0⟩

theorem valid (f : Nat → Nat) (hf : ∀ u < 4, f u < 4) (h : Nat → Nat) (hh : ∀ u < 5, h u < 3) (o : Nat → Bool) : LocalIn.Valid ⟨g, h, o, f⟩ :=
  ⟨(by decide : ∀ u < 4, ∀ x ∈ g.adj u, x.1 < 5), hh, hf, (by decide : 0 < 4)⟩

example : I.Valid ∧ Respects I := ⟨valid _ (by decide) _ (by decide) _, by unfold Respects; decide⟩

example : (localClusters? I (fun _ => some 7) (fun _ => 9) (fun _ => 5)).map
    (fun r => (r.1.members, (List.range 4).map r.1.clusterOf, (List.range 6).map r.2)) =
    some ([[3], [0, 1]], [some 1, some 1, none, some 0], [0, 3, 4, 0, 2, 0]) := by decide +kernel

/-- Blocks 0 and 2 are overloaded; nodes 1, 2 and 3 have the same label. -/
def J : LocalIn := { I with label := fun v => if v = 0 then 0 else 1 }

theorem validJ : J.Valid := valid _ (by decide) _ (by decide) _

theorem builtJ : (localClusters? J (fun _ => none) (fun _ => 0) (fun _ => 0)).map
    (fun r => (r.1.members, r.2 (1 * 3 + 1), connTo g J.block [1, 3] 1)) = some ([[0], [1, 3]], 0, 5) := by decide +kernel

end LocalExample

/-- **C89, labels across blocks.**  The label propagation does not know the partition.  If a label is used in several blocks, then a cluster can have
nodes in different blocks, so that moving it takes away nodes from a block that is not considered; and the connections with a block can be too small,
since edges to nodes with the same label that are not in the cluster are left out. -/
theorem C89_across_blocks : ∃ I : LocalIn, I.Valid ∧ ∃ S conns, localClusters? I (fun _ => none) (fun _ => 0) (fun _ => 0) = some (S, conns) ∧
    ∃ (c : Nat) (l : List Nat), S.members[c]? = some l ∧ (∃ u ∈ l, ∃ v ∈ l, I.block u ≠ I.block v) ∧
      ∃ b < I.g.k, conns (c * I.g.k + b) < connTo I.g I.block l b := by
  refine ⟨LocalExample.J, LocalExample.validJ, ?_⟩
  have h := LocalExample.builtJ
  cases hr : localClusters? LocalExample.J (fun _ => none) (fun _ => 0) (fun _ => 0) with
  | none => rw [hr] at h; exact absurd h (by simp)
  | some r =>
    rw [hr] at h
    have h' := Option.some.inj h
    have e1 := congrArg Prod.fst h'
    have e2 := congrArg (fun x => x.2.1) h'
    have e3 := congrArg (fun x => x.2.2) h'
    refine ⟨r.1, r.2, rfl, 1, [1, 3], by rw [show r.1.members = _ from e1]; rfl, ⟨1, by simp, 3, by simp, by decide⟩, 1, by decide, ?_⟩
    show r.2 (1 * 3 + 1) < connTo LocalExample.g LocalExample.J.block [1, 3] 1
    rw [show r.2 (1 * 3 + 1) = 0 from e2, show connTo LocalExample.g LocalExample.J.block [1, 3] 1 = 5 from e3]
    decide

end Verif.ClusterBalancer
