import Verif.ClusterBalancer.GreedyLemmas
import Verif.ClusterBalancer.Props

/-!
# C87: the greedy clusters of the cluster balancer

Every node of an overloaded block should be in exactly one cluster, so that the balancer can move it, and the connections of the clusters
should be the actual ones.  Both fail by one node per cluster: the loop that gives nodes back starts one position too late.
-/

namespace Verif.ClusterBalancer
open Verif

/-- **C87, clusters.**  Whatever node is chosen next and whenever the policy stops: the builder finishes, no cluster is empty, no node is twice in
a cluster or in two clusters, all nodes of a cluster are owned and in the same overloaded block, and without its last node a cluster is
lighter than the limit. -/
theorem C87_clusters {e : Env} (V : e.Valid) (junk : Nat → Int) : ∃ b, build? e junk = some b ∧
    ∀ (c : Nat) l, b.sets.members[c]? = some l → l ≠ [] ∧ l.Nodup ∧ (∀ u ∈ l, u < e.g.n ∧ e.maxw (e.block u) < e.bw (e.block u)) ∧
      (∀ u ∈ l, ∀ v ∈ l, e.block u = e.block v) ∧ (l.dropLast.map e.nw).sum < e.limit ∧
      ∀ (d : Nat) m, b.sets.members[d]? = some m → d ≠ c → ∀ u ∈ l, u ∉ m := by
  obtain ⟨b, h, B⟩ := build_inv V junk
  refine ⟨b, h, fun c l hl => ⟨(B.nonempty c l hl).1, (B.nonempty c l hl).2, fun u hu => ?_, B.same c l hl, B.weight c l hl,
    fun d m hm hdc u hu hum => ?_⟩⟩
  · obtain ⟨h1, h2⟩ := B.mem c l hl u hu
    exact ⟨h1, by simpa [Env.over] using (B.named u c h2).2.2⟩
  · exact hdc (Option.some.inj ((B.mem d m hm u hum).2.symm.trans (B.mem c l hl u hu).2))

/-- **C87, cover.**  Every node of an overloaded block is in a cluster or is marked as a node of a cluster without being in it; there is at most one
such node for each cluster.  The full property, that every node of an overloaded block is in a cluster, is false, see `C87_left_out`. -/
theorem C87_cover_partial {e : Env} (V : e.Valid) (junk : Nat → Int) : ∃ b, build? e junk = some b ∧
    (∀ u < e.g.n, e.maxw (e.block u) < e.bw (e.block u) → ∃ c < b.sets.members.length, u ∈ b.sets.members.getD c [] ∨ LeftOut b.sets c u) ∧
    (∀ u < e.g.n, e.bw (e.block u) ≤ e.maxw (e.block u) → b.sets.clusterOf u = none) ∧
    ∀ c u v, LeftOut b.sets c u → LeftOut b.sets c v → u = v := by
  obtain ⟨b, h, B⟩ := build_inv V junk
  refine ⟨b, h, fun u hu ho => ?_, fun u hu ho => ?_, B.left⟩
  · obtain ⟨c, hc⟩ := B.cover u hu (by simpa [Env.over] using ho)
    refine ⟨c, (B.named u c hc).1, ?_⟩
    by_cases hm : u ∈ b.sets.members.getD c []
    · exact .inl hm
    · exact .inr ⟨hc, hm⟩
  · cases hc : b.sets.clusterOf u with
    | none => rfl
    | some c =>
      have := (B.named u c hc).2.2
      simp only [Env.over, decide_eq_true_eq] at this
      omega

/-- **C87, connections.**  If no node is left out, the clusters and connections are as C86 needs them; so they are exact after any moves. -/
theorem C87_exact_partial {e : Env} (V : e.Valid) (junk : Nat → Int) : ∃ b, build? e junk = some b ∧ ((∀ c u, ¬ LeftOut b.sets c u) →
    Clustering e.g b.sets ∧ Blocks e.g b.sets e.block ∧ Exact e.g b.sets ⟨e.block, b.conns⟩) := by
  obtain ⟨b, h, B⟩ := build_inv V junk
  refine ⟨b, h, fun hno => ?_⟩
  have hof : ∀ (c : Nat) l, b.sets.members[c]? = some l → ∀ u, (b.sets.clusterOf u = some c ↔ u ∈ l) := fun c l hl u => by
    refine ⟨fun hc => ?_, fun hu => (B.mem c l hl u hu).2⟩
    by_contra hm
    refine hno c u ⟨hc, ?_⟩
    rw [List.getD_eq_getElem?_getD, hl]; exact hm
  refine ⟨⟨fun c l hl => (B.nonempty c l hl).1, fun c l hl => (B.nonempty c l hl).2, fun c l hl u hu => (B.mem c l hl u hu).1,
    fun c l hl u _ => hof c l hl u, fun u _ c hc => (B.named u c hc).1⟩, ⟨V.blocks, B.same⟩, fun c l hl q hq => ?_⟩
  show b.conns (c * e.g.k + q) = _
  rw [B.conns c l hl q hq]
  refine sum_map_congr fun x _ => ?_
  have hx : (x.1 < e.g.n ∧ b.sets.clusterOf x.1 = some c) ↔ x.1 ∈ l :=
    ⟨fun h => (hof c l hl x.1).1 h.2, fun h => ⟨(B.mem c l hl x.1 h).1, (hof c l hl x.1).2 h⟩⟩
  simp only [hx]

/-- Three nodes in an overloaded block.  Node 0 has a connection with block 1, which has room for one node only. -/
def leftEnv : Env := ⟨⟨3, 1, 3, fun u => if u = 0 then [(1, 2), (3, 5)] else if u = 1 then [(0, 2), (2, 7), (3, 1)] else if u = 2 then [(1, 7)] else []⟩,
  fun v => if v < 3 then 0 else 1, fun _ => 1, fun b => [3, 0, 0].getD b 0, fun b => [2, 1, 3].getD b 0, 10, fun _ _ => 0, fun _ _ => false⟩

theorem left_valid : leftEnv.Valid :=
  ⟨⟨by decide, by decide, by decide⟩, by decide, fun _ => by show (0 : Int) ≤ 1; decide, by decide, fun _ => rfl⟩

theorem left_built : (build? leftEnv fun _ => 0).map (fun b => (b.sets.members, (List.range 3).map b.sets.clusterOf,
    ghostToCluster leftEnv.g b.sets.members)) = some ([[0], [2]], [some 0, some 0, some 1], [(0, 5, 0)]) := by decide +kernel

theorem left_moved : ((build? leftEnv fun _ => 0).bind fun b => (run? leftEnv.g b.sets (adjacency 1 (fun _ => 0) [(0, 5, 0)])
    ⟨leftEnv.block, b.conns⟩ [.cluster 1 2]).map fun s => (s.conns 0, connTo leftEnv.g s.block [0] 0)) = some (-7, 2) := by decide +kernel

/-- **C87, a node is left out.**  The builder gives back all nodes after the best prefix except for the first one: node 1 is in an overloaded block
and in no cluster. -/
theorem C87_left_out : ∃ e : Env, e.Valid ∧ ∃ b, build? e (fun _ => 0) = some b ∧
    ∃ u < e.g.n, e.maxw (e.block u) < e.bw (e.block u) ∧ (∀ l ∈ b.sets.members, u ∉ l) ∧ ∃ c, LeftOut b.sets c u := by
  refine ⟨leftEnv, left_valid, ?_⟩
  have h := left_built
  cases hb : build? leftEnv fun _ => 0 with
  | none => rw [hb] at h; exact absurd h (by simp)
  | some b =>
    rw [hb] at h
    obtain ⟨h1, h2, _⟩ : b.sets.members = [[0], [2]] ∧ (List.range 3).map b.sets.clusterOf = [some 0, some 0, some 1] ∧ _ := by simpa using h
    have h3 : b.sets.clusterOf 1 = some 0 := by
      have := congrArg (fun l => l[1]?) h2
      simpa using this
    refine ⟨b, rfl, 1, by decide, by decide, ?_, 0, h3, ?_⟩
    · rw [h1]; decide
    · rw [h1]; decide

/-- **C87, the connections are wrong.**  When another cluster that is adjacent to the node that was left out moves, the connections of the
cluster that lost the node are changed, and one becomes negative. -/
theorem C87_negative : ∃ e : Env, e.Valid ∧ ∃ b, build? e (fun _ => 0) = some b ∧ ∃ srt, SortedOf (ghostToCluster e.g b.sets.members) srt ∧
    ∃ s, run? e.g b.sets (adjacency e.g.ghosts (fun _ => 0) srt) ⟨e.block, b.conns⟩ [.cluster 1 2] = some s ∧
      s.conns (0 * e.g.k + 0) < 0 ∧ 0 ≤ connTo e.g s.block [0] 0 ∧ b.sets.members[0]? = some [0] := by
  refine ⟨leftEnv, left_valid, ?_⟩
  have h := left_built
  have h' := left_moved
  cases hb : build? leftEnv fun _ => 0 with
  | none => rw [hb] at h; exact absurd h (by simp)
  | some b =>
    rw [hb] at h h'
    obtain ⟨h1, _, h3⟩ : b.sets.members = [[0], [2]] ∧ _ ∧ ghostToCluster leftEnv.g b.sets.members = [(0, 5, 0)] := by simpa using h
    rw [Option.bind_some] at h'
    cases hs : run? leftEnv.g b.sets (adjacency 1 (fun _ => 0) [(0, 5, 0)]) ⟨leftEnv.block, b.conns⟩ [.cluster 1 2] with
    | none => rw [hs] at h'; exact absurd h' (by simp)
    | some s =>
      rw [hs] at h'
      obtain ⟨h4, h5⟩ : s.conns 0 = -7 ∧ connTo leftEnv.g s.block [0] 0 = 2 := by simpa using h'
      refine ⟨b, rfl, [(0, 5, 0)], ⟨by rw [h3], by decide⟩, s, hs, ?_, by rw [h5]; decide, by rw [h1]; rfl⟩
      rw [Nat.zero_mul]
      show s.conns 0 < 0
      rw [h4]; decide

/-! ## A concrete case without a node that is left out -/

/-- As above, but block 1 has room for all nodes. -/
def fullEnv : Env := { leftEnv with maxw := fun b => [2, 9, 3].getD b 0, limit := 2 }

theorem full_valid : fullEnv.Valid :=
  ⟨⟨by decide, by decide, by decide⟩, by decide, fun _ => by show (0 : Int) ≤ 1; decide, by decide, fun _ => rfl⟩

example : (build? fullEnv fun _ => 7).map (fun b => (b.sets.members, (List.range 3).map b.sets.clusterOf, (List.range 6).map b.conns)) =
    some ([[0, 1], [2]], [some 0, some 0, some 1], [7, 6, 0, 7, 0, 0]) := by decide +kernel

example : ∃ b, build? fullEnv (fun _ => 7) = some b ∧ ((∀ c u, ¬ LeftOut b.sets c u) →
    Clustering fullEnv.g b.sets ∧ Blocks fullEnv.g b.sets fullEnv.block ∧ Exact fullEnv.g b.sets ⟨fullEnv.block, b.conns⟩) :=
  C87_exact_partial full_valid _

example : (build? leftEnv fun _ => 7).map (fun b => (b.sets.members, (List.range 3).map b.sets.clusterOf, (List.range 6).map b.conns)) =
    some ([[0], [2]], [some 0, some 0, some 1], [0, 5, 0, 7, 0, 0]) := by decide +kernel

end Verif.ClusterBalancer
