import Verif.Reorder.Sort
import Verif.Compression.Props
import Verif.Facade.Props

/-!
# C48: reordering the edges keeps the graph, and yields the order of the compressed graph

Specification: the observable neighbourhoods are the calls of the callback of `adjacent_nodes`, for the uncompressed
(`CsrGraph.G.adjacentNodes`) and for the compressed graph (`Compression.adjacentNodes?`).
-/

namespace Verif.Reorder
open Verif.Compression
open Verif.CsrGraph (G)

/-- The offsets of the nodes do not decrease. -/
def Monotone (g : G) : Prop := ∀ u, u < g.n → g.nodes.data u ≤ g.nodes.data (u + 1)

theorem adjacent_eq (g : G) (u : Nat) :
    g.adjacentNodes u = nbs g.isEdgeWeighted g.nodes.data ⟨g.edges.data, g.ew.data⟩ u := rfl

/-- C48: for every graph, every sorting of the indices that `std::sort` may return and every order in which the nodes
are handled, no access is out of bounds, every loop ends, and every neighbourhood is a permutation of what it was: no edge gets the
weight of another edge, is lost or moves to another node.  Everything else in the graph, including edge weights that are not used and the
arrays outside the neighbourhoods, is unchanged. -/
theorem C48_neighbourhoods (c : Cfg) (sortIdx : (Nat → Nat) → Nat → List Nat) (hs : SortIdx sortIdx) (g : G) (hg : Monotone g)
    (order : List Nat) (ho : order.Perm (List.range g.n)) :
    ∃ g', reorderGraph? c sortIdx order g = some g' ∧
      (∀ u, u < g.n → (g'.adjacentNodes u).Perm (g.adjacentNodes u)) ∧
      g' = { g with edges := { g.edges with data := g'.edges.data }, ew := { g.ew with data := g'.ew.data } } ∧
      (∀ e, e < g.nodes.data 0 ∨ g.nodes.data g.n ≤ e → g'.edges.data e = g.edges.data e ∧ g'.ew.data e = g.ew.data e) ∧
      (g.isEdgeWeighted = false → g'.ew = g.ew) := by
  obtain ⟨A', h1, h2, h3, h4⟩ := reorder_spec c hs g.isEdgeWeighted hg order ⟨g.edges.data, g.ew.data⟩
    (ho.nodup_iff.2 List.nodup_range) (fun u hu => List.mem_range.1 (ho.subset hu))
  have h0n := mono_le hg (Nat.zero_le g.n) (Nat.le_refl _)
  refine ⟨_, by unfold reorderGraph?; rw [h1]; rfl, ?_, rfl, ?_, ?_⟩
  · intro u hu
    exact (h2 u (ho.symm.subset (List.mem_range.2 hu))).2
  · intro e he
    exact ⟨h4.edges e (by omega), h4.weights e (by omega)⟩
  · intro hw
    show ({ g.ew with data := A'.weights } : CsrGraph.Arr Int) = g.ew
    rw [h4.unweighted hw]

/-- The neighbourhoods as the list that the compression works on. -/
def neighbourhoods (g : G) : List (List Nbr) := (List.range g.n).map g.adjacentNodes

/-! ## The order -/

/-- Forgets the weights. -/
def bare (x : Nbr) : Nbr := (x.1, 0)

theorem segs_bare (ivs : List Interval) (nb : List Nbr) : (segsOf nb ivs).map bare = segsOf (nb.map bare) ivs := by
  induction ivs with
  | nil => rfl
  | cons iv ivs ih =>
    obtain ⟨l, r, len, idx⟩ := iv
    simp only [segsOf, List.map_append, List.map_take, List.map_drop, ih]

theorem rem_bare (ivs : List Interval) (nb : List Nbr) (b : Nat) : (remOf nb b ivs).map bare = remOf (nb.map bare) b ivs := by
  induction ivs generalizing b with
  | nil => simp [remOf, List.map_drop]
  | cons iv ivs ih =>
    obtain ⟨l, r, len, idx⟩ := iv
    simp only [remOf, List.map_append, List.map_take, List.map_drop, ih]

theorem partOrder_bare (c : Cfg) (nb : List Nbr) : (partOrder c nb).map bare = partOrder c (nb.map bare) := by
  unfold partOrder
  have : (nb.map bare).map (·.1) = nb.map (·.1) := by rw [List.map_map]; rfl
  split
  · rw [List.map_append, segs_bare, rem_bare, this]
  · rfl

theorem nodeOrder_bare (c : Cfg) (nb : List Nbr) : (nodeOrder c nb).map bare = nodeOrder c (nb.map bare) := by
  unfold nodeOrder
  rw [List.length_map]
  split
  · unfold partsOf
    rw [List.map_flatMap, List.length_map, List.flatMap_def, List.flatMap_def, List.map_map, List.map_map]
    congr 1
    apply List.map_congr_left
    intro i _
    simp only [Function.comp_def]
    rw [partOrder_bare, List.map_take, List.map_drop]
  · exact partOrder_bare c nb

/-- The targets of the ordered neighbourhood only depend on the targets. -/
theorem nodeOrder_targets (c : Cfg) {a a' : List Nbr} (h : a.map (·.1) = a'.map (·.1)) :
    (nodeOrder c a).map (·.1) = (nodeOrder c a').map (·.1) := by
  have hb : ∀ l : List Nbr, l.map bare = (l.map (·.1)).map fun x => (x, (0 : Int)) := by
    intro l; rw [List.map_map]; rfl
  have e : ∀ l : List Nbr, (nodeOrder c l).map (·.1) = (nodeOrder c (l.map bare)).map (·.1) := by
    intro l; rw [← nodeOrder_bare, List.map_map]; rfl
  rw [e a, e a', hb, hb, h]

theorem targets_eq {a a' : List Nbr} (hp : a.Perm a') (h : ByTarget a) (h' : ByTarget a') : a.map (·.1) = a'.map (·.1) :=
  List.Perm.eq_of_pairwise (le := (· ≤ ·)) (fun _ _ _ _ h1 h2 => Nat.le_antisymm h1 h2) (List.pairwise_map.2 h)
    (List.pairwise_map.2 h') (hp.map _)

theorem sorted_unique {a a' : List Nbr} (hp : a.Perm a') (h : ByTarget a) (h' : ByTarget a') (hd : (a.map (·.1)).Nodup) : a = a' := by
  refine List.Perm.eq_of_pairwise (le := fun x y : Nbr => x.1 ≤ y.1) (fun x y hx hy h1 h2 => ?_) h h' hp
  have e : x.1 = y.1 := Nat.le_antisymm h1 h2
  exact List.inj_on_of_nodup_map hd hx (hp.symm.subset hy) e

/-- C48: after reordering, the uncompressed graph reports the neighbours of each node in the same order as the compressed graph
made of the graph before the reordering.  This holds for the sequence of targets; if a node has no parallel edges, also for the edge
weights.  The high degree encoding must be switched on (as it is by default): the reordering splits neighbourhoods with 10000 or more edges
also if the compression does not.  `sorted` are the neighbourhoods as sorted by the encoder.  The other hypotheses are those of
`C06_compression_lossless`. -/
theorem C48_order (c : Cfg) (hc : c.highDegree = true) (sortIdx : (Nat → Nat) → Nat → List Nat) (hs : SortIdx sortIdx) (g : G)
    (hg : Monotone g) (order : List Nat) (ho : order.Perm (List.range g.n)) (wE : Nat) (hwE : 0 < wE)
    (hok : GraphOk wE (neighbourhoods g)) (sorted : List (List Nbr))
    (hsorted : sorted.length = g.n ∧ ∀ u a, sorted[u]? = some a → a.Perm (g.adjacentNodes u) ∧ ByTarget a)
    (hsvb : c.svb = true → g.isEdgeWeighted = true → ∀ nb ∈ neighbourhoods g, ∀ x ∈ nb, x.2 < 2 ^ 31)
    (hsize : ∀ u nb b, sorted[u]? = some nb → 10000 ≤ nb.length → add? c g.isEdgeWeighted wE u nb = some b → b.length < 2 ^ 31) :
    ∃ g' cg, reorderGraph? c sortIdx order g = some g' ∧ compress? c g.isEdgeWeighted wE sorted = some cg ∧
      ∀ u, u < g.n → ∃ out, adjacentNodes? c g.isEdgeWeighted wE cg u = some out ∧
        out.map (·.1) = (g'.adjacentNodes u).map (·.1) ∧
        (((g.adjacentNodes u).map (·.1)).Nodup → out = g'.adjacentNodes u) := by
  obtain ⟨A', h1, h2, h3, h4⟩ := reorder_spec c hs g.isEdgeWeighted hg order ⟨g.edges.data, g.ew.data⟩
    (ho.nodup_iff.2 List.nodup_range) (fun u hu => List.mem_range.1 (ho.subset hu))
  have hnb : ∀ u, u < g.n → (neighbourhoods g)[u]? = some (g.adjacentNodes u) := by
    intro u hu
    unfold neighbourhoods
    rw [List.getElem?_map, List.getElem?_range hu]
    rfl
  obtain ⟨cg, q1, q2⟩ := compress_order c g.isEdgeWeighted wE hwE (neighbourhoods g) sorted hok
    ⟨by rw [hsorted.1]; simp [neighbourhoods], fun u a b ha hb => by
      have hu : u < g.n := by
        rw [← hsorted.1]
        rcases Nat.lt_or_ge u sorted.length with h | h
        · exact h
        · rw [List.getElem?_eq_none h] at ha; cases ha
      rw [hnb u hu] at hb
      cases hb
      exact (hsorted.2 u a ha).1⟩ hsvb (fun _ => hsize)
  refine ⟨_, cg, by unfold reorderGraph?; rw [h1]; rfl, q1, ?_⟩
  intro u hu
  have hsu : sorted[u]? = some (sorted[u]'(by rw [hsorted.1]; exact hu)) := List.getElem?_eq_getElem _
  obtain ⟨p1, p2⟩ := hsorted.2 u _ hsu
  have p3 := (q2 u _ _ (hnb u hu) hsu).2
  generalize sorted[u]'(by rw [hsorted.1]; exact hu) = a at p1 p2 p3 hsu
  obtain ⟨⟨srt, r1, r2, r3⟩, _⟩ := h2 u (ho.symm.subset (List.mem_range.2 hu))
  have hcc : ({ c with highDegree := true } : Cfg) = c := by
    cases c; simp only at hc; rw [hc]
  rw [hcc] at r3
  have r1' : srt.Perm a := r1.trans p1.symm
  refine ⟨_, p3, ?_, ?_⟩
  · rw [List.map_map]
    have e1 : ((fun x : Nbr => x.1) ∘ rep g.isEdgeWeighted) = fun x => x.1 := by funext x; rfl
    rw [e1]
    refine Eq.trans (nodeOrder_targets c (targets_eq r1'.symm p2 r2)) ?_
    rw [← r3]
    rfl
  · intro hd
    have hd' : (a.map (·.1)).Nodup := (p1.map (fun x : Nbr => x.1)).nodup_iff.2 hd
    have ea : a = srt := sorted_unique r1'.symm p2 r2 hd'
    rw [ea, ← r3]
    show ((nbs g.isEdgeWeighted g.nodes.data A' u).map (rep g.isEdgeWeighted)) = nbs g.isEdgeWeighted g.nodes.data A' u
    unfold nbs sl
    rw [List.map_map]
    apply List.map_congr_left
    intro e _
    unfold rep view
    simp only [Function.comp_def]
    split <;> rfl

/-- C48, for the library interface: the reordering meets what `Facade` assumes of it. -/
theorem C48_facade (c : Cfg) (sortIdx : (Nat → Nat) → Nat → List Nat) (hs : SortIdx sortIdx) (order : G → List Nat)
    (ho : ∀ g, (order g).Perm (List.range g.n)) :
    ∃ newEdges, Facade.Reorders newEdges ∧
      ∀ s : Facade.State, Monotone s.g →
        reorderGraph? c sortIdx (order s.g) s.g = some (Facade.reorder newEdges s).g := by
  classical
  refine ⟨fun g e => match reorder? c sortIdx g.isEdgeWeighted g.nodes.data (order g) ⟨g.edges.data, g.ew.data⟩ with
    | some A' => view g.isEdgeWeighted A' e
    | none => (0, 0), ?_, ?_⟩
  · intro g hg u hu
    obtain ⟨A', h1, h2, h3, h4⟩ := reorder_spec c hs g.isEdgeWeighted hg (order g) ⟨g.edges.data, g.ew.data⟩
      ((ho g).nodup_iff.2 List.nodup_range) (fun u hu => List.mem_range.1 ((ho g).subset hu))
    simp only [h1]
    exact (h2 u ((ho g).symm.subset (List.mem_range.2 hu))).2
  · intro s hg
    obtain ⟨A', h1, h2, h3, h4⟩ := reorder_spec c hs s.g.isEdgeWeighted hg (order s.g) ⟨s.g.edges.data, s.g.ew.data⟩
      ((ho s.g).nodup_iff.2 List.nodup_range) (fun u hu => List.mem_range.1 ((ho s.g).subset hu))
    unfold reorderGraph? Facade.reorder
    simp only [h1, Option.map_some, Option.some.injEq]
    by_cases hw : s.g.isEdgeWeighted = true
    · simp only [view, hw, if_true]
    · have hw' : s.g.isEdgeWeighted = false := by simpa using hw
      have hu := h4.unweighted hw'
      simp only [view, hw', Bool.false_eq_true, if_false]
      simp only at hu
      rw [hu]

/-! ## The hypotheses are met -/

/-- Insertion sort of the indices. -/
def insertionIdx (key : Nat → Nat) (d : Nat) : List Nat := (List.range d).insertionSort fun i j => key i ≤ key j

theorem insertionIdx_ok : SortIdx insertionIdx := by
  intro key d
  have : Std.Total fun i j => key i ≤ key j := ⟨fun i j => Nat.le_total _ _⟩
  have : IsTrans Nat fun i j => key i ≤ key j := ⟨fun i j k h1 h2 => Nat.le_trans h1 h2⟩
  exact ⟨List.perm_insertionSort _ _, List.pairwise_insertionSort _ _⟩

/-- Node 0 has the neighbours 7, 1, 4, 6, 5 with different weights, node 1 the neighbour 0. -/
def exG : G where
  nodes := .owned (fun u => [0, 5, 6, 6, 6, 6, 6, 6, 6].getD u 0) 9
  edges := .owned (fun e => [7, 1, 4, 6, 5, 0].getD e 0) 6
  nw := .owned (fun _ => 0) 0
  ew := .owned (fun e => [70, 10, 40, 60, 50, 10].getD e 0) 6
  totalNw := 8
  maxNw := 1
  totalEw := 240
  maxDegree := some 5
  sorted := false
  buckets := fun _ => 0
  numBuckets := 1

/-- The interval 4, 5, 6, 7 is moved to the front together with its weights. -/
example : Monotone exG ∧ exG.isEdgeWeighted = true ∧
    ((reorderGraph? ⟨true, true, false⟩ insertionIdx [1, 0, 2, 3, 4, 5, 6, 7] exG).map fun g => g.adjacentNodes 0) =
      some [(4, 40), (5, 50), (6, 60), (7, 70), (1, 10)] ∧
    ((reorderGraph? ⟨true, true, false⟩ insertionIdx [1, 0, 2, 3, 4, 5, 6, 7] exG).map fun g => g.adjacentNodes 1) =
      some [(0, 10)] := by
  refine ⟨?_, ?_, ?_, ?_⟩
  · intro u hu
    have hu : u < 8 := hu
    have : ∀ u, u < 8 → exG.nodes.data u ≤ exG.nodes.data (u + 1) := by decide +kernel
    exact this u hu
  · decide +kernel
  · decide +kernel
  · decide +kernel

example : GraphOk 64 (neighbourhoods exG) ∧ ((exG.adjacentNodes 0).map (·.1)).Nodup := by
  refine ⟨⟨?_, ?_, ?_, ?_⟩, ?_⟩ <;> decide +kernel

/-- The neighbourhoods sorted by the encoder. -/
example : ByTarget [(1, 10), (4, 40), (5, 50), (6, 60), (7, 70)] ∧
    [((1 : Nat), (10 : Int)), (4, 40), (5, 50), (6, 60), (7, 70)].Perm (exG.adjacentNodes 0) := by
  refine ⟨?_, ?_⟩
  · unfold ByTarget; decide
  · decide +kernel

end Verif.Reorder
