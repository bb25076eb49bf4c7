import Verif.ClusterBalancer.Lemmas

/-!
# C86: the cluster balancer knows the connections of its clusters

The balancer chooses the cluster and the target by the weights of the edges between a cluster and the blocks.  These weights are computed once
and then updated for every move.
-/

namespace Verif.ClusterBalancer
open Verif

/-- **C86, moves.**  Whatever clusters of this process and ghost nodes are moved, to whatever blocks and in whatever order, and in whatever way
`std::sort` orders equal entries: no access is outside of an array, the partition is the one with the moves applied, and the connections
are the actual ones afterwards, if they were before. -/
theorem C86_moves {g : PGraph} {S : Sets} {s : St} {junk : Nat → Nat} {srt : List (Nat × Int × Nat)} {ops : List Op} (G : Graph g)
    (C : Clustering g S) (B : Blocks g S s.block) (E : Exact g S s) (hsrt : SortedOf (ghostToCluster g S.members) srt)
    (ho : ∀ o ∈ ops, o.Valid g S) : ∃ s', run? g S (adjacency g.ghosts junk srt) s ops = some s' ∧ Exact g S s' ∧ Blocks g S s'.block ∧
      ∀ v, s'.block v = blockAfter S s.block ops v := run_ok G C hsrt ops s B E ho

/-- **C86, gains.**  The difference of the connections with the target and with the block of a cluster is the weight by which the cut shrinks
when the cluster is moved. -/
theorem C86_gain {g : PGraph} {S : Sets} {s : St} {c u dst : Nat} {l : List Nat} (C : Clustering g S) (B : Blocks g S s.block)
    (E : Exact g S s) (hc : S.members[c]? = some l) (hu : u ∈ l) (hd : dst < g.k) :
    cutOf g s.block l - cutOf g (blockAfter S s.block [.cluster c dst]) l =
      s.conns (c * g.k + dst) - s.conns (c * g.k + s.block u) := by
  have hs : s.block u < g.k := B.lt u (by have := C.owned c l hc u hu; omega)
  rw [E c l hc dst hd, E c l hc _ hs]
  have ba : ∀ v, blockAfter S s.block [.cluster c dst] v = if v ∈ l then dst else s.block v := fun v => by
    show (if v ∈ S.members.getD c [] then dst else s.block v) = _
    rw [List.getD_eq_getElem?_getD, hc]; rfl
  unfold cutOf connTo
  rw [sum_flatMap', sum_flatMap', ← sum_map_sub', ← sum_map_sub']
  refine sum_map_congr fun v hv => ?_
  rw [← sum_map_sub', ← sum_map_sub']
  refine sum_map_congr fun x _ => ?_
  rw [ba, ba, if_pos hv, B.same c l hc v hv u hu]
  by_cases hx : x.1 ∈ l
  · rw [if_pos (c := x.1 ∈ l) hx, B.same c l hc x.1 hx u hu]; simp [hx]
  · rw [if_neg (c := x.1 ∈ l) hx]
    simp only [hx, not_false_eq_true, true_and, ne_eq]
    split_ifs <;> omega

/-- **C86, the adjacency of ghost nodes.**  For every ghost node, the entries of a cluster sum up to the weight of the edges between the cluster
and the ghost node. -/
theorem C86_ghost_adjacency {g : PGraph} {S : Sets} {junk : Nat → Nat} {srt : List (Nat × Int × Nat)} {c p : Nat} {l : List Nat} (G : Graph g)
    (C : Clustering g S) (hsrt : SortedOf (ghostToCluster g S.members) srt) (hc : S.members[c]? = some l) (hp : p < g.ghosts) :
    ((listed (adjacency g.ghosts junk srt) p).map fun x => if c = x.1 then x.2 else 0).sum =
      (l.map fun u => between g u (g.n + p)).sum := by
  obtain ⟨X, Y, Z, h1, h2, h3, h4⟩ := adjacency_slice (junk := junk) hsrt.2 (fun t ht => ghostToCluster_lt G C t (hsrt.1.mem_iff.1 ht)) hp
  have : listed (adjacency g.ghosts junk srt) p = Y := by
    unfold listed
    rw [h3, h2, h1, List.drop_left, List.take_left]
  rw [this, h4, slice_sum, (hsrt.1.map _).sum_eq, ghostToCluster_ok G C hc]
  unfold toGhost between
  rw [sum_flatMap']

/-- **C86, superfluous entries.**  The array of the entries is resized before the entries are appended.  So the first ghost node has as many
superfluous entries as there are entries at all; each of them says that cluster 0 is adjacent with weight 0.  The sums above are not changed,
but each of them makes the balancer update cluster 0 once more. -/
theorem C86_superfluous {ghosts : Nat} {junk : Nat → Nat} {srt : List (Nat × Int × Nat)} (hs : srt.Pairwise fun a b => a.1 ≤ b.1)
    (hlt : ∀ t ∈ srt, t.1 < ghosts) (h0 : 0 < ghosts) : listed (adjacency ghosts junk srt) 0 =
      List.replicate srt.length (0, 0) ++ (srt.filter fun t => decide (t.1 = 0)).map fun t => (t.2.2, t.2.1) := by
  obtain ⟨X, Y, Z, h1, h2, h3, h4⟩ := adjacency_slice (junk := junk) hs hlt h0
  unfold listed
  rw [h3, h2, h1, List.drop_left, List.take_left, h4, if_pos rfl]

/-- **C86, singletons.**  If every node is its own cluster, then the nodes of overloaded blocks, and no others, are in a cluster, and the
connections are the actual ones.  The graph must not have self-loops. -/
theorem C86_singletons {g : PGraph} {block : Nat → Nat} {over : Nat → Bool} (G : Graph g) (hb : ∀ v < g.n + g.ghosts, block v < g.k)
    (loops : ∀ u < g.n, ∀ x ∈ g.adj u, x.1 ≠ u) : Clustering g (singletons g block over).1 ∧ Blocks g (singletons g block over).1 block ∧
      Exact g (singletons g block over).1 ⟨block, (singletons g block over).2⟩ ∧
      ∀ u < g.n, (((singletons g block over).1.clusterOf u).isSome = true ↔ over (block u) = true) := by
  have I := singletons_inv (over := over) (fun u hu x hx => hb x.1 (G.known u hu x hx))
  have len : ∀ (c : Nat) l, (singletons g block over).1.members[c]? = some l → c < (singletons g block over).1.members.length := by
    intro c l h
    by_contra hge
    rw [List.getElem?_eq_none (by omega)] at h
    exact absurd h (by simp)
  refine ⟨⟨fun c l hl => ?_, fun c l hl => ?_, fun c l hl u hu => ?_, fun c l hl u _ => ?_, fun u _ c h => len c _ ((I.of u c).1 h)⟩,
    ⟨hb, fun c l hl u hu v hv => ?_⟩, fun c l hl b hbk => ?_, fun u hu => ⟨fun h => ?_, fun h => ?_⟩⟩
  · obtain ⟨v, _, rfl, _⟩ := I.single c l hl; simp
  · obtain ⟨v, _, rfl, _⟩ := I.single c l hl; exact List.nodup_singleton v
  · obtain ⟨v, hv, rfl, _⟩ := I.single c l hl; rw [List.mem_singleton] at hu; omega
  · obtain ⟨v, hv, rfl, _⟩ := I.single c l hl
    rw [I.of u c, hl, List.mem_singleton]
    exact ⟨fun h => ((List.cons.inj (Option.some.inj h)).1).symm, fun h => by rw [h]⟩
  · obtain ⟨w, hw, rfl, _⟩ := I.single c l hl
    rw [List.mem_singleton] at hu hv; rw [hu, hv]
  · obtain ⟨v, hv, rfl, _⟩ := I.single c l hl
    rw [show (⟨block, (singletons g block over).2⟩ : St).conns = (singletons g block over).2 from rfl, I.conns c v hl b hbk]
    unfold connTo
    rw [List.flatMap_singleton]
    refine sum_map_congr fun x hx => ?_
    have := loops v hv x hx
    simp [this]
  · obtain ⟨c, hc⟩ := Option.isSome_iff_exists.1 h
    obtain ⟨v, _, e, ho⟩ := I.single c _ ((I.of u c).1 hc)
    rw [(List.cons.inj e).1]; exact ho
  · obtain ⟨c, hc⟩ := I.cover u hu h
    rw [hc]; rfl

/-- **C86, the target.**  If the cluster fits into some block other than its own, the target is such a block and no such block has a larger
connection. -/
theorem C86_target_partial {k own : Nat} {conn bw maxw : Nat → Int} {w : Int} (hc : ∀ b < k, -2 ^ 31 < conn b)
    (hf : ∃ b < k, b ≠ own ∧ bw b + w ≤ maxw b) : let r := findMaxConn k conn own bw maxw w
      r.2 < k ∧ r.2 ≠ own ∧ bw r.2 + w ≤ maxw r.2 ∧ r.1 = conn r.2 ∧ ∀ b < k, b ≠ own → bw b + w ≤ maxw b → conn b ≤ conn r.2 := by
  obtain ⟨h1, _, h3⟩ := maxConn_fold (conn := conn) (own := own) (bw := bw) (maxw := maxw) (w := w) (List.range k) (-2 ^ 31, 2 ^ 32 - 1)
  intro r
  rcases h1 with h | ⟨b, hb, ho, hfb, h⟩
  · obtain ⟨b, hb, ho, hfb⟩ := hf
    have := h3 b (List.mem_range.2 hb) ho hfb
    rw [h] at this
    have := hc b hb
    omega
  · have hr : r = (conn b, b) := h
    rw [hr]
    refine ⟨List.mem_range.1 hb, ho, hfb, rfl, fun d hd hdo hdf => ?_⟩
    have := h3 d (List.mem_range.2 hd) hdo hdf
    rw [h] at this
    exact this

/-- **C86, no target.**  If the cluster fits into no other block, then the target is no block, and the gain is the smallest integer minus the
connection with the own block: it overflows if there is an edge to another cluster of the own block.  Nothing prevents this in builds without
assertions. -/
theorem C86_no_target {k own : Nat} {conn bw maxw : Nat → Int} {w : Int} (hf : ∀ b < k, b ≠ own → maxw b < bw b + w) (h0 : 0 < conn own) :
    findMaxConn k conn own bw maxw w = (-2 ^ 31, 2 ^ 32 - 1) ∧ findMaxGain? k conn own bw maxw w = none := by
  have h : findMaxConn k conn own bw maxw w = (-2 ^ 31, 2 ^ 32 - 1) := by
    obtain ⟨h1, _⟩ := maxConn_fold (conn := conn) (own := own) (bw := bw) (maxw := maxw) (w := w) (List.range k) (-2 ^ 31, 2 ^ 32 - 1)
    rcases h1 with h | ⟨b, hb, ho, hfb, _⟩
    · exact h
    · have := hf b (List.mem_range.1 hb) ho; omega
  refine ⟨h, ?_⟩
  unfold findMaxGain?
  rw [h]
  exact if_neg (by dsimp only; omega)

/-! ## A concrete case -/

/-- Three owned nodes and two ghost nodes. -/
def exGraph : PGraph := ⟨3, 2, 3, fun u =>
  if u = 0 then [(1, 2), (3, 5)] else if u = 1 then [(0, 2), (2, 3)] else if u = 2 then [(1, 3), (3, 1), (4, 4)] else []⟩

/-- The first two nodes are in one cluster, the last one is in another. -/
def exSets : Sets := ⟨[[0, 1], [2]], fun u => if u = 0 ∨ u = 1 then some 0 else if u = 2 then some 1 else none⟩

/-- The owned nodes are in block 0, the ghost nodes in block 1. -/
def exSt : St := ⟨fun v => if v < 3 then 0 else 1, fun i => [3, 5, 0, 3, 5, 0].getD i 0⟩

theorem ex_graph : Graph exGraph := ⟨by decide, by decide, by decide⟩

theorem ex_members {c : Nat} {l : List Nat} (h : exSets.members[c]? = some l) : (c = 0 ∧ l = [0, 1]) ∨ (c = 1 ∧ l = [2]) := by
  match c, h with
  | 0, h => exact .inl ⟨rfl, (Option.some.inj h).symm⟩
  | 1, h => exact .inr ⟨rfl, (Option.some.inj h).symm⟩
  | n + 2, h => exact absurd h (by simp [exSets])

theorem ex_clustering : Clustering exGraph exSets := by
  refine ⟨fun c l h => ?_, fun c l h => ?_, fun c l h => ?_, fun c l h => ?_, fun u hu c h => ?_⟩
  · rcases ex_members h with ⟨rfl, rfl⟩ | ⟨rfl, rfl⟩ <;> simp
  · rcases ex_members h with ⟨rfl, rfl⟩ | ⟨rfl, rfl⟩ <;> decide
  · rcases ex_members h with ⟨rfl, rfl⟩ | ⟨rfl, rfl⟩ <;> decide
  · rcases ex_members h with ⟨rfl, rfl⟩ | ⟨rfl, rfl⟩ <;> decide
  · have : u = 0 ∨ u = 1 ∨ u = 2 := by have : u < 3 := hu; omega
    rcases this with rfl | rfl | rfl <;> (obtain rfl := Option.some.inj h; decide)

theorem ex_blocks : Blocks exGraph exSets exSt.block := by
  refine ⟨by decide, fun c l h => ?_⟩
  rcases ex_members h with ⟨rfl, rfl⟩ | ⟨rfl, rfl⟩ <;> decide

theorem ex_exact : Exact exGraph exSets exSt := by
  intro c l h
  rcases ex_members h with ⟨rfl, rfl⟩ | ⟨rfl, rfl⟩ <;> decide

/-- The sorted list of the adjacency of the ghost nodes. -/
def exSorted : List (Nat × Int × Nat) := [(0, 1, 1), (0, 5, 0), (1, 4, 1)]

theorem ex_sorted : SortedOf (ghostToCluster exGraph exSets.members) exSorted := by
  refine ⟨?_, by decide⟩
  show exSorted.Perm [(0, 5, 0), (0, 1, 1), (1, 4, 1)]
  decide

/-- The first cluster moves to block 2, then a ghost node to block 0, then the second cluster to block 1. -/
example : ∃ s', run? exGraph exSets (adjacency 2 (fun i => 7 * i) exSorted) exSt [.cluster 0 2, .ghost 3 0, .cluster 1 1] = some s' ∧
    Exact exGraph exSets s' ∧ Blocks exGraph exSets s'.block ∧
      ∀ v, s'.block v = blockAfter exSets exSt.block [.cluster 0 2, .ghost 3 0, .cluster 1 1] v :=
  C86_moves ex_graph ex_clustering ex_blocks ex_exact ex_sorted (by
    intro o ho
    simp only [List.mem_cons, List.not_mem_nil, or_false] at ho
    rcases ho with rfl | rfl | rfl
    · exact ⟨by decide, by decide⟩
    · exact ⟨by decide, by decide, by decide⟩
    · exact ⟨by decide, by decide⟩)

example : (run? exGraph exSets (adjacency 2 (fun i => 7 * i) exSorted) exSt [.cluster 0 2, .ghost 3 0, .cluster 1 1]).map
    (fun s => ((List.range 5).map s.block, (List.range 6).map s.conns)) = some ([2, 2, 1, 0, 1], [5, 3, 0, 1, 4, 3]) := by decide

example : cutOf exGraph exSt.block [0, 1] - cutOf exGraph (blockAfter exSets exSt.block [.cluster 0 1]) [0, 1] = 5 - 3 :=
  C86_gain (u := 0) ex_clustering ex_blocks ex_exact (c := 0) rfl (by decide) (by decide)

example : ((listed (adjacency 2 (fun i => 7 * i) exSorted) 0).map fun x => if 1 = x.1 then x.2 else 0).sum = 1 :=
  C86_ghost_adjacency (c := 1) (l := [2]) ex_graph ex_clustering ex_sorted rfl (by decide)

example : listed (adjacency 2 (fun i => 7 * i) exSorted) 0 = [(0, 0), (0, 0), (0, 0), (1, 1), (0, 5)] :=
  C86_superfluous (by decide) (by decide) (by decide)

example : Exact exGraph (singletons exGraph exSt.block fun b => b == 0).1 ⟨exSt.block, (singletons exGraph exSt.block fun b => b == 0).2⟩ :=
  (C86_singletons ex_graph (by decide) (by decide)).2.2.1

example : (singletons exGraph exSt.block fun b => b == 0).1.members = [[0], [1], [2]] := by decide

example : (findMaxConn 3 (fun b => [3, 5, 0].getD b 0) 0 (fun _ => 4) (fun b => if b = 1 then 5 else 9) 2).2 ≠ 0 :=
  (C86_target_partial (by decide) ⟨2, by decide⟩).2.1

example : findMaxGain? 3 (fun b => [3, 5, 0].getD b 0) 0 (fun _ => 4) (fun _ => 5) 2 = none :=
  (C86_no_target (by decide) (by decide)).2

end Verif.ClusterBalancer
