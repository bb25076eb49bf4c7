import Verif.Dist.KWaySizes
import Verif.Dist.KWaySpec

/-!
# The hierarchy of k-way multilevel partitioning
-/

namespace Verif.Dist
open Verif

variable {N : Nat} {dist cdist : List Nat} {inp cinp : Nat → Input} {g cg : Nat → DGraph} {Wt cWt : Nat → Int}

/-- The coarse graph of a level, where `f` is the coarse node of a node. -/
structure Coarser (N : Nat) (dist : List Nat) (inp : Nat → Input) (g : Nat → DGraph) (Wt : Nat → Int) (L : FineLevel) (cdist : List Nat)
    (cinp : Nat → Input) (cg : Nat → DGraph) (cWt : Nat → Int) (f : Nat → Nat) : Prop where
  fine : L.g = g
  range : ∀ a, a < globalN dist → f a < globalN cdist
  cut : ∀ B, cut cdist cinp B = cut dist inp fun a => B (f a)
  weight : ∀ B b, blockWeight cdist cWt B b = blockWeight dist Wt (fun a => B (f a)) b
  project : ∀ (cpart : Nat → List Nat) (B : Nat → Nat),
    (∀ q u, q < N → u < localN cdist q → (cpart q)[u]? = some (B (first cdist q + u))) →
    ∀ me, me < N → ∃ part, project? L.orders N L.g L.lab cg cpart me = some part ∧
      ∀ l v, (g me).localToGlobal? l = some v → part[l]? = some (B (f v))

/-- A hierarchy: its coarsest graph, and the coarsest node `F a` of each node `a` of the input. -/
inductive Tower (N : Nat) (dist : List Nat) (inp : Nat → Input) (g : Nat → DGraph) (Wt : Nat → Int) :
    List FineLevel → List Nat → (Nat → Input) → (Nat → DGraph) → (Nat → Int) → (Nat → Nat) → Prop where
  | base : Tower N dist inp g Wt [] dist inp g Wt fun a => a
  | push {stack d i h W F L cd ci cg cW f} : Tower N dist inp g Wt stack d i h W F → PartitionInput N d i h W →
    Coarser N d i h W L cd ci cg cW f → Tower N dist inp g Wt (L :: stack) cd ci cg cW fun a => f (F a)

theorem World.congr (W : World dist inp g) {r : Nat → DGraph} (h : ∀ p, p < procs dist → r p = g p) : World dist inp r :=
  ⟨W.some_process, W.valid, fun p hp => h p hp ▸ W.represents p hp⟩

theorem Stored.congr (S : Stored dist inp g) {r : Nat → DGraph} (h : ∀ p, p < procs dist → r p = g p) : Stored dist inp r :=
  ⟨fun p hp => h p hp ▸ S.nodes p hp, fun p hp => h p hp ▸ S.edges p hp, fun p hp => h p hp ▸ S.edge_weights p hp,
    fun p hp => h p hp ▸ S.node_weights p hp⟩

theorem World.global_nodes (W : World dist inp g) : globalNodes g = globalN dist := by
  unfold globalNodes globalN first procs
  rw [(W.represents 0 W.some_process).dist_eq, List.getLast?_eq_getElem?, List.getD_eq_getElem?_getD]

/-- One level of the coarsening. -/
theorem PartitionInput.coarse (I : PartitionInput N dist inp g Wt) {cl : ClustererFn} (hcl : ValidClusterer N cl) {run : LevelRun}
    (hrun : run.Ok N) : ∃ L cdist cinp cg cWt f, coarseGraph N cl run g = some (L, cg) ∧ PartitionInput N cdist cinp cg cWt ∧
      Coarser N dist inp g Wt L cdist cinp cg cWt f := by
  obtain ⟨lab, C, h1, K⟩ := hcl dist inp g Wt I
  obtain ⟨hp, G, S, hs, he, hw, _, _⟩ := I
  subst hp
  have W := G.world
  obtain ⟨cinp, Q, _, hu, hl, hc⟩ := K.contraction hrun.orders Wt G.weights G.symmetric
  obtain ⟨cg0, a1, a2, a3, _, _, _⟩ := hc run.zero (run.ex (cdistOf dist C)) run.shuffle (hrun.ex _) hrun.shuffle
  obtain ⟨cg, b1, b2⟩ := forAll_ok (g 0) (f := contract? run.orders (procs dist) g lab run.zero (run.ex (cdistOf dist C)) run.shuffle)
    (Q := fun p r => r = cg0 p) fun p hp => ⟨_, a1 p hp, rfl⟩
  have hcp : procs (cdistOf dist C) = procs dist := cdist_procs
  have cW := a2.congr (r := cg) fun p hp => b2 p (hcp ▸ hp)
  have cS := a3.congr (r := cg) fun p hp => b2 p (hcp ▸ hp)
  have hN := K.numbers
  have hsurj : globalN (cdistOf dist C) ≤ globalN dist := quotient_nodes_le (f := fun a => cnode dist C (C a)) hN.surjective
  have hm := quotient_edges_le Q cW.some_process cW.valid W.valid
  have hnn := quotient_nonneg Q cW.some_process cW.valid G.edges
  have ht := quotient_total_le Q cW.some_process cW.valid W.valid hN.range G.edges
  have hcWt : HasWeights (cdistOf dist C) cinp (blockWeight dist Wt fun a => cnode dist C (C a)) :=
    fun q hq u hu => (Q.weights q u hq hu).symm
  refine ⟨⟨g, lab, run.orders⟩, cdistOf dist C, cinp, cg, blockWeight dist Wt fun a => cnode dist C (C a), fun a => cnode dist C (C a), ?_, ?_, ?_⟩
  · unfold coarseGraph
    rw [h1, Option.bind_some, K.coarseDist hrun.orders, Option.bind_some, b1, Option.map_some]
  · refine ⟨hcp, ⟨cW, hu G.undirected, quotient_loopFree Q cW.some_process cW.valid, small_degrees hnn (by omega), hnn, hcWt, fun x _ => ?_⟩, cS,
      by omega, by omega, ?_, .inr fun p hp h => ?_, .inr fun p hp h => ?_⟩
    · unfold blockWeight
      refine sum_nonneg fun y hy => ?_
      obtain ⟨a, ha, rfl⟩ := List.mem_map.1 hy
      exact G.nonneg a (List.mem_range.1 (List.mem_filter.1 ha).1)
    · rw [quotient_weight hN.range]; exact hw
    · rw [← (hl p (hcp ▸ hp)).1, h]; rfl
    · have := (hl p (hcp ▸ hp)).2
      rw [h] at this
      exact List.length_eq_zero_iff.1 this.symm
  · have hproj := C73_projected_partition W cW hN Q hcWt
    refine ⟨rfl, hN.range, fun B => (hproj B).1 G.undirected, fun B => (hproj B).2, fun cpart B hB me hme => ?_⟩
    obtain ⟨part, c1, _, c3⟩ := K.project hrun.orders cW cpart B hB hme
    exact ⟨part, c1, c3⟩

theorem Tower.spec {stack d i h W F} (T : Tower N dist inp g Wt stack d i h W F) : (∀ a, a < globalN dist → F a < globalN d) ∧
    (∀ B, cut d i B = cut dist inp fun a => B (F a)) ∧ ∀ B b, blockWeight d W B b = blockWeight dist Wt (fun a => B (F a)) b := by
  induction T with
  | base => exact ⟨fun _ h => h, fun _ => rfl, fun _ _ => rfl⟩
  | push T _ R ih =>
    refine ⟨fun a ha => R.range _ (ih.1 a ha), fun B => ?_, fun B b => ?_⟩
    · rw [R.cut, ih.2.1]
    · rw [R.weight, ih.2.2]

/-- The coarsening ends. -/
theorem Tower.coarsening {threshold : Nat} {cl : Nat → ClustererFn} (hcl : ∀ i, ValidClusterer N (cl i)) {run : Nat → LevelRun}
    (hrun : ∀ i, (run i).Ok N) : ∀ (fuel : Nat) {stack d i h W F}, Tower N dist inp g Wt stack d i h W F → PartitionInput N d i h W →
    globalN d < fuel → ∃ stack' d' i' h' W' F', coarsening? N threshold cl run fuel stack h = some (stack', h') ∧
      Tower N dist inp g Wt stack' d' i' h' W' F' ∧ PartitionInput N d' i' h' W'
  | 0, _, _, _, _, _, _, _, _, hf => absurd hf (Nat.not_lt_zero _)
  | fuel + 1, stack, d, i, h, W, F, T, I, hf => by
    unfold coarsening?
    by_cases ht : globalNodes h ≤ threshold
    · rw [if_pos ht]
      exact ⟨_, _, _, _, _, _, rfl, T, I⟩
    · rw [if_neg ht]
      obtain ⟨L, cd, ci, cg, cW, f, h1, h2, h3⟩ := I.coarse (hcl stack.length) (hrun stack.length)
      rw [h1, Option.bind_some]
      dsimp only
      by_cases hc : hasConverged (globalNodes h) (globalNodes cg) = true
      · rw [if_pos hc]
        exact ⟨_, _, _, _, _, _, rfl, T, I⟩
      · rw [if_neg hc]
        refine Tower.coarsening hcl hrun fuel (T.push I h3) h2 ?_
        have : ¬ 19 * globalNodes h ≤ 20 * globalNodes cg := fun h => hc (decide_eq_true h)
        rw [I.graph.world.global_nodes, h2.graph.world.global_nodes] at this
        omega

/-- The uncoarsening. -/
theorem Tower.uncoarsening {k : Nat} {limit : Nat → Int} {bal imp : Prop} {refine : Nat → RefinerFn}
    (hr : ∀ i, SoundRefiner N k limit bal imp (refine i)) {stack d i h W F} (T : Tower N dist inp g Wt stack d i h W F) :
    ∀ part weights B, PartitionInput N d i h W → Agree d h W k part weights B → (∀ a, a < globalN d → B a < k) →
    ∃ part' weights' P, uncoarsening? N refine stack h part weights = some (part', weights') ∧ Agree dist g Wt k part' weights' P ∧
      (∀ a, a < globalN dist → P a < k) ∧
      (bal → ∀ b, b < k → blockWeight dist Wt P b ≤ max (blockWeight dist Wt (fun a => B (F a)) b) (limit b)) ∧
      (imp → cut dist inp P ≤ cut dist inp fun a => B (F a)) := by
  induction T with
  | base =>
    intro part weights B _ hA hB
    exact ⟨part, weights, B, rfl, hA, hB, fun _ b _ => le_max_left _ _, fun _ => le_refl _⟩
  | @push stack d i h W F L cd ci cg cW f T I R ih =>
    intro part weights B cI hA hB
    have cWorld := cI.graph.world
    have hcp := cI.processes
    have hp := I.processes
    obtain ⟨fine, h1, h2⟩ := forAll_ok ([] : List Nat)
      (f := project? L.orders N L.g L.lab cg fun q => (List.range (cg q).totalN).map (part q))
      (Q := fun p r => ∀ l v, (h p).localToGlobal? l = some v → r[l]? = some (B (f v))) fun p hp => by
        refine R.project _ B (fun q u hq hu => ?_) p hp
        have Rq := cWorld.represents q (hcp ▸ hq)
        rw [List.getElem?_map, List.getElem?_range (by rw [Rq.total]; omega), Option.map_some, (hA q (hcp ▸ hq)).1 u _ (Rq.own u hu)]
    have hA1 : Agree d h W k (fun p l => (fine p).getD l 0) weights fun a => B (f a) := by
      refine fun p hp' => ⟨fun l v hl => ?_, fun b hb => ?_⟩
      · show (fine p).getD l 0 = _
        rw [List.getD_eq_getElem?_getD, h2 p (hp ▸ hp') l v hl]
        rfl
      · rw [(hA p (by rw [hcp, ← hp]; exact hp')).2 b hb, R.weight]
    obtain ⟨part2, weights2, P2, a1, a2, a3, a4, a5⟩ := hr stack.length d i h W _ weights _ I hA1 fun a ha => hB _ (R.range a ha)
    obtain ⟨part', weights', P, b1, b2, b3, b4, b5⟩ := ih part2 weights2 P2 I a2 a3
    have TS := T.spec
    refine ⟨part', weights', P, ?_, b2, b3, fun hb b hk => ?_, fun hi => ?_⟩
    · unfold uncoarsening? uncoarsen?
      rw [h1, Option.map_some, Option.bind_some, R.fine, a1, Option.bind_some]
      exact b1
    · have c1 := b4 hb b hk
      have c2 := a4 hb b hk
      rw [TS.2.2, TS.2.2] at c2
      beta_reduce
      omega
    · have c1 := b5 hi
      have c2 := a5 hi
      rw [TS.2.1, TS.2.1] at c2
      beta_reduce
      omega

end Verif.Dist
