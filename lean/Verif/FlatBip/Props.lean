import Verif.FlatBip.Bfs
import Verif.FlatBip.Seeds

/-!
# C55 and C56: the first bipartitions and the seed nodes

`Bipartition` and `blockW` are defined in `Verif/InitialFM/Spec.lean`; `total`, `Oracle.Ok`, `Walk`, `IsDist` and `Furthest` in `Spec.lean`.
-/

namespace Verif.FlatBip
open Finset
open Verif.InitialFM (Cfg Bipartition blockW)

/-! ## C56 -/

/-- **C56**, one search.  For every graph, connected or not, and every start node: the search ends within the capacity of its queue, and
returns a node with the largest distance and this distance, or a node that cannot be reached and `inf`. -/
theorem C56_furthest (g : Graph) (hg : g.WF) (cap inf : Nat) (hcap : g.n ≤ cap) (r : Nat) (hr : r < g.n) :
    ∃ v d, furthest? g cap inf r = some (v, d) ∧ Furthest g inf r v d := furthest_ok hg hcap inf hr

theorem walk_lt {g : Graph} (hg : g.WF) {d u v : Nat} (hu : u < g.n) (h : Walk g d u v) : v < g.n := by
  induction h with
  | nil => exact hu
  | snoc _ e he ih => exact hg _ (ih hu) e he

theorem furthest_unique {g : Graph} {inf u v v' d d' : Nat} (h : Furthest g inf u v d) (h' : Furthest g inf u v' d') : d = d' := by
  obtain ⟨hv, h⟩ := h
  obtain ⟨hv', h'⟩ := h'
  rcases h with ⟨h1, h2⟩ | ⟨h1, h2⟩ <;> rcases h' with ⟨h3, h4⟩ | ⟨h3, h4⟩
  · obtain ⟨e, he, hw⟩ := h4 v hv
    obtain ⟨e', he', hw'⟩ := h2 v' hv'
    have := h1.2 e hw; have := h3.2 e' hw'
    omega
  · obtain ⟨e, _, hw⟩ := h2 v' hv'
    exact absurd hw (h3 e)
  · obtain ⟨e, _, hw⟩ := h4 v hv
    exact absurd hw (h1 e)
  · rw [h2, h4]

/-- **C56**, all searches.  The result is a pair of existing nodes.  If there is at least one search, then the second node is one
that is furthest away from the first one; no start node that was tried has a node further away. -/
theorem C56_far_away (g : Graph) (hg : g.WF) (hn : 0 < g.n) (cap inf : Nat) (hcap : g.n ≤ cap) (hinf : 0 < inf)
    (xs : List (Nat × Bool)) (hxs : ∀ x ∈ xs, x.1 < g.n) :
    ∃ a b, farAway? g cap inf xs = some (a, b) ∧ a < g.n ∧ b < g.n ∧
      (xs ≠ [] → ∃ d, Furthest g inf a b d ∧ ∀ x ∈ xs, ∀ v d', Furthest g inf x.1 v d' → d' ≤ d) := by
  obtain ⟨s, h1, h2, _, h4⟩ := far_fold hg hcap (inf := inf) xs (0, (0, 0)) hxs
  have hall : ∀ x ∈ xs, ∀ v d', Furthest g inf x.1 v d' → d' ≤ s.1 := by
    intro x hx v d' hf
    obtain ⟨v', d'', h5, h6⟩ := furthest_ok hg hcap inf (hxs x hx)
    rw [furthest_unique hf h6]
    exact h4 x hx _ _ h5
  unfold farAway?
  rw [h1]
  rcases h2 with h2 | ⟨x, hx, h5, h6⟩
  · subst h2
    refine ⟨0, 0, rfl, hn, hn, fun hne => ?_⟩
    -- all distances are zero, so that there is only one node
    obtain ⟨x, hx⟩ := List.exists_mem_of_ne_nil xs hne
    obtain ⟨v, d, h5, h6, h7⟩ := furthest_ok hg hcap inf (hxs x hx)
    have hd : d = 0 := by have := h4 x hx v d h5; simpa using this
    subst hd
    refine ⟨0, ⟨hn, Or.inl ⟨isDist_self g 0, fun y hy => ?_⟩⟩, hall⟩
    rcases h7 with ⟨_, h8⟩ | ⟨_, h8⟩
    · have hone : ∀ y, y < g.n → y = x.1 := by
        intro y hy
        obtain ⟨d', hd', hw⟩ := h8 y hy
        have : d' = 0 := by omega
        subst this
        cases hw; rfl
      rw [hone y hy, ← hone 0 hn]
      exact ⟨0, le_refl _, .nil 0⟩
    · omega
  · obtain ⟨v, d, h7, h8⟩ := furthest_ok hg hcap inf (hxs x hx)
    rw [h7] at h6
    cases h6
    exact ⟨_, _, rfl, by rw [h5]; exact hxs x hx, h8.1, fun _ => ⟨s.1, by rw [h5]; exact h8, hall⟩⟩

/-! ## C55 -/

theorem bfs_ok {c : Cfg} (sel : Select) {cap inf : Nat} (hcap : c.g.n ≤ cap) (hinf : 0 < inf) (hg : c.g.WF) (hn : 0 < c.g.n) {seeds : List (Nat × Bool)}
    (hs : ∀ x ∈ seeds, x.1 < c.g.n) {H : Prop} {M : Int} (hH : H → Slack c M) {s : Bip} (h0 : s.bw 0 = 0) (h1 : s.bw 1 = 0) :
    ∃ s', bfs? c sel cap inf seeds s = some s' ∧ Bipartition c.g s'.part s'.bw ∧ (H → ∀ b, b < 2 → s'.bw b ≤ c.maxW b) := by
  unfold bfs?
  obtain ⟨a, b, h2, ha, hb, _⟩ := C56_far_away c.g hg hn cap inf hcap hinf seeds hs
  rw [h2]
  simp only [Option.bind_eq_bind, Option.bind_some]
  have hinv : BInv c H (fun _ => False) (BFS.mk s (fun _ => []) (fun _ => 0) (fun _ _ => false) (fun _ => false) 0) := by
    refine ⟨Acc.start _ h0 h1, ?_, ?_, ?_, by show 0 < 2; omega, ?_⟩
    · intro _ _ u hu; cases hu
    · intro _ _ u _ hm; cases hm
    · intro _ _; simp [cnt]
    · intro hh b hb
      have := (hH hh).limit b hb
      show s.bw b ≤ _
      rcases (by omega : b = 0 ∨ b = 1) with rfl | rfl <;> omega
  obtain ⟨s1, h3, h4, h5, h6, h7, h8⟩ := bfsPush_ok hcap hinv (b := 0) (by omega) ha rfl
  rw [h3]
  simp only [Option.bind_some]
  have hm1 : s1.marked 1 b = false := by
    unfold bfsPush? at h3
    split at h3
    · cases h3
      rfl
    · cases h3
  obtain ⟨s2, h9, h10, h11, _⟩ := bfsPush_ok hcap h4 (b := 1) (by omega) hb hm1
  rw [h9]
  simp only [Option.bind_some]
  obtain ⟨s3, h12, h13, h14⟩ := bfsLoop_ok (sel := sel) hcap hg hH (2 * c.g.n) s2 h10 (by
    rw [h11, h5]; unfold mu; simp only [List.length_nil]; omega)
  rw [h12]
  exact ⟨_, rfl, h13.acc.bip h14, h13.bal⟩

/-- **C55**.  For every graph, connected or not, each of the algorithms, all random choices, and whatever an earlier use left in the
memory: the algorithm ends, no queue or heap is used outside of its bounds, every node is in one of the two blocks, and the
block weights are exact. -/
theorem C55_bipartition (c : Cfg) (hg : c.g.WF) (cap inf : Nat) (hcap : c.g.n ≤ cap) (hinf : 0 < inf) (kind : Kind) (o : Oracle) (ho : o.Ok c.g.n)
    (old : Bip) :
    ∃ s, bipartition? c cap inf kind o old = some s ∧ Bipartition c.g s.part s.bw := by
  unfold bipartition?
  simp only
  by_cases hn : c.g.n = 0
  · rw [if_pos hn]
    refine ⟨_, rfl, fun u hu => by omega, ?_, ?_⟩
    · unfold blockW; rw [hn]; rfl
    · unfold blockW; rw [hn]; rfl
  · rw [if_neg hn]
    have hn : 0 < c.g.n := by omega
    cases kind with
    | bfs sel =>
      obtain ⟨s, h1, h2, _⟩ := bfs_ok (c := c) sel (inf := inf) hcap hinf hg hn ho.seeds (H := False) (M := 0) (fun h => h.elim)
        (s := { old with bw := upd (upd old.bw 0 0) 1 0 }) rfl rfl
      exact ⟨s, h1, h2⟩
    | ggg =>
      obtain ⟨s, h1, h2⟩ := ggg_ok (c := c) (tie := o.tie) ho.draw hn (s := { old with bw := upd (upd old.bw 0 0) 1 0 }) rfl
      exact ⟨s, h1, h2.bip⟩
    | random =>
      refine ⟨_, rfl, (random_acc (Acc.start c.g ?_ ?_) c.g.n (le_refl _)).bip fun u hu => by simpa using hu⟩ <;> rfl

/-- **C55**, breadth first search.  If the limits leave room for one more node of the largest weight, then the blocks are within
their limits. -/
theorem C55_bfs_balanced (c : Cfg) (hg : c.g.WF) (hn : 0 < c.g.n) (cap inf : Nat) (hcap : c.g.n ≤ cap) (hinf : 0 < inf) (sel : Select) (o : Oracle)
    (ho : o.Ok c.g.n) (old : Bip) (M : Int) (hw : ∀ u, u < c.g.n → 0 ≤ c.g.w u ∧ c.g.w u ≤ M)
    (hl : ∀ b, b < 2 → 0 ≤ c.maxW b) (ht : total c.g + M ≤ c.maxW 0 + c.maxW 1 + 1) :
    ∃ s, bipartition? c cap inf (.bfs sel) o old = some s ∧ blockW c.g s.part 0 ≤ c.maxW 0 ∧ blockW c.g s.part 1 ≤ c.maxW 1 := by
  unfold bipartition?
  simp only
  rw [if_neg (by omega)]
  obtain ⟨s, h1, h2, h3⟩ := bfs_ok (c := c) sel (inf := inf) hcap hinf hg hn ho.seeds (H := True) (M := M) (fun _ => ⟨hw, ht, hl⟩)
    (s := { old with bw := upd (upd old.bw 0 0) 1 0 }) rfl rfl
  refine ⟨s, h1, ?_, ?_⟩
  · rw [← h2.bw0]; exact h3 trivial 0 (by omega)
  · rw [← h2.bw1]; exact h3 trivial 1 (by omega)

/-- **C55**, random.  If the perfectly balanced weights are large enough for all nodes, then no block is heavier than its perfectly
balanced weight by more than half of the weight of a node. -/
theorem C55_random_balanced (c : Cfg) (cap inf : Nat) (o : Oracle) (old : Bip) (M : Int) (hM : 0 ≤ M)
    (hw : ∀ u, u < c.g.n → 0 ≤ c.g.w u ∧ c.g.w u ≤ M) (hp : ∀ b, b < 2 → 0 ≤ c.perfect b)
    (ht : total c.g ≤ c.perfect 0 + c.perfect 1) :
    ∃ s, bipartition? c cap inf .random o old = some s ∧ 2 * (blockW c.g s.part 0 - c.perfect 0) ≤ M ∧
      2 * (blockW c.g s.part 1 - c.perfect 1) ≤ M := by
  unfold bipartition?
  simp only
  have hpos := fun b hb => hp b hb
  by_cases hn : c.g.n = 0
  · rw [if_pos hn]
    have h0 := hp 0 (by omega); have h1 := hp 1 (by omega)
    refine ⟨_, rfl, ?_, ?_⟩
    · unfold blockW; rw [hn, range_zero, sum_empty]; omega
    · unfold blockW; rw [hn, range_zero, sum_empty]; omega
  · rw [if_neg hn]
    have hacc := Acc.start c.g (s := { old with bw := upd (upd old.bw 0 0) 1 0 }) rfl rfl
    have hb := (random_acc (coin := o.coin) hacc c.g.n (le_refl _)).bip fun u hu => by simpa using hu
    have hbal := random_balance (coin := o.coin) hacc hw hM hp (fun b hb => by
      rcases (by omega : b = 0 ∨ b = 1) with rfl | rfl <;> rfl) ht c.g.n (le_refl _)
    refine ⟨_, rfl, ?_, ?_⟩
    · have := hbal 0 (by omega); rw [hb.bw0] at this; exact this
    · have := hbal 1 (by omega); rw [hb.bw1] at this; exact this

/-- **C55**, greedy graph growing.  The second block reaches its perfectly balanced weight, unless it has all nodes, and it has a node without
which it would not reach it. -/
theorem C55_ggg_weight_partial (c : Cfg) (hn : 0 < c.g.n) (cap inf : Nat) (o : Oracle) (ho : o.Ok c.g.n) (old : Bip) :
    ∃ s, bipartition? c cap inf .ggg o old = some s ∧
      (c.perfect 1 ≤ blockW c.g s.part 1 ∨ ∀ u, u < c.g.n → s.part u = 1) ∧
      (0 < c.perfect 1 → ∃ u, u < c.g.n ∧ s.part u = 1 ∧ blockW c.g s.part 1 - c.g.w u < c.perfect 1) := by
  unfold bipartition?
  simp only
  rw [if_neg (by omega)]
  obtain ⟨s, h1, h2⟩ := ggg_ok (c := c) (tie := o.tie) ho.draw hn (s := { old with bw := upd (upd old.bw 0 0) 1 0 }) rfl
  refine ⟨s, h1, ?_, ?_⟩
  · rw [← h2.bip.bw1]; exact h2.full
  · rw [← h2.bip.bw1]; exact h2.last

theorem gggLoop_edges {c c' : Cfg} (h1 : c'.g.n = c.g.n) (h2 : c'.g.w = c.g.w) (h3 : c'.perfect 1 = c.perfect 1) {draw : Nat → Nat → Nat}
    {tie tie' : Nat → Nat} : ∀ (fuel t : Nat) (s : GGG), s.queue = (fun _ => none) →
    gggLoop? c' draw tie' fuel t s = gggLoop? c draw tie fuel t s
  | 0, _, _, _ => rfl
  | fuel + 1, t, s, hq => by
    unfold gggLoop?
    simp only
    rw [h1]
    generalize gggStart c.g.n s.marked (draw t) = u
    by_cases hu : c.g.n ≤ u
    · rw [if_pos hu, if_pos hu]
    · rw [if_neg hu, if_neg hu]
      have hpush : ∀ g : Graph, gggPush? s.queue u (gggGain g s.s.part u) = some (upd (fun _ => none) u (some (gggGain g s.s.part u))) := by
        intro g; unfold gggPush?; rw [hq]
      rw [hpush, hpush]
      simp only [Option.bind_eq_bind, Option.bind_some]
      obtain ⟨m, hm⟩ : ∃ m, c.g.n + 1 = m + 2 := ⟨c.g.n - 1, by omega⟩
      have hch : changeBlock c'.g s.s u 1 = changeBlock c.g s.s u 1 := by unfold changeBlock; rw [h2]
      rw [hm, gggGrow_single (c := c') (by omega) rfl, gggGrow_single (c := c) (by omega) rfl]
      simp only [Option.bind_some, hch, h3]
      rw [gggLoop_edges h1 h2 h3 fuel (t + 1) _ rfl]

/-- **C55**, what greedy graph growing does not do: it grows nothing.  With the same random choices the result is the same for all graphs
with the same nodes, whatever their edges are; the second block is a random set of nodes. -/
theorem C55_ggg_not_greedy (c c' : Cfg) (hn : c'.g.n = c.g.n) (hw : c'.g.w = c.g.w) (hp : c'.perfect = c.perfect) (cap inf : Nat)
    (o : Oracle) (old : Bip) : bipartition? c' cap inf .ggg o old = bipartition? c cap inf .ggg o old := by
  unfold bipartition?
  simp only
  rw [hn]
  by_cases h : c.g.n = 0
  · rw [if_pos h, if_pos h]
  · rw [if_neg h, if_neg h]
    unfold fill? ggg?
    have : totalWeight c'.g = totalWeight c.g := by unfold totalWeight; rw [hn, hw]
    simp only [hn, this]
    exact gggLoop_edges hn hw (by rw [hp]) _ 0 _ rfl

/-! ## Examples -/

/-- A path 0-1-2-3 and an isolated node 4. -/
def exG : Graph where
  n := 5
  w := fun u => if u = 4 then 2 else 1
  adj := fun u => match u with
    | 0 => [(1, 1)]
    | 1 => [(0, 1), (2, 3)]
    | 2 => [(1, 3), (3, 1)]
    | 3 => [(2, 1)]
    | _ => []

def exC : Cfg := { g := exG, maxW := fun _ => 4, perfect := fun _ => 3, iterations := 5, maxKey := 1000 }
def exO : Oracle := { seeds := [(1, true)], draw := fun t j => (2 * t + j) % 5, tie := fun _ => 0, coin := fun u => u % 2 = 0 }
def exOld : Bip := { part := fun _ => 7, bw := fun _ => 9 }

theorem exG_wf : exG.WF := by unfold Graph.WF; decide
theorem exO_ok : exO.Ok exC.g.n := ⟨by decide, fun t j => Nat.mod_lt _ (by decide)⟩

-- the node 4 cannot be reached from node 1
example : furthest? exG 5 100 1 = some (4, 100) := by decide +kernel
-- without it, node 3 is furthest from 0
example : furthest? { exG with n := 4 } 5 100 0 = some (3, 3) := by decide +kernel
example : exG.WF ∧ 0 < exG.n ∧ ∀ x ∈ exO.seeds, x.1 < exG.n := ⟨exG_wf, by decide, by decide⟩

def exRun (kind : Kind) : Option (List Nat × Int × Int) :=
  (bipartition? exC 5 100 kind exO exOld).map fun s => ((List.range 5).map s.part, s.bw 0, s.bw 1)

example : exRun (.bfs .alternating) = some ([0, 0, 1, 1, 1], 2, 4) := by decide +kernel
example : exRun (.bfs .sequential) = some ([0, 0, 0, 1, 1], 3, 3) := by decide +kernel
example : exRun (.bfs .lighter) = some ([0, 0, 1, 0, 1], 3, 3) := by decide +kernel
-- the second block is not connected, and is the same without the edges
example : exRun .ggg = some ([1, 0, 1, 0, 1], 2, 4) := by decide +kernel
example : exRun .random = some ([1, 0, 1, 0, 1], 2, 4) := by decide +kernel

example : ((bipartition? { exC with g := { exG with adj := fun _ => [] } } 5 100 .ggg exO exOld).map fun s =>
    ((List.range 5).map s.part, s.bw 0, s.bw 1)) = exRun .ggg := by
  rw [C55_ggg_not_greedy exC { exC with g := { exG with adj := fun _ => [] } } rfl rfl rfl]; rfl

-- the hypotheses of `C55_bfs_balanced`, `C55_random_balanced` and `C55_ggg_weight_partial`
example : (∀ u, u < exC.g.n → 0 ≤ exC.g.w u ∧ exC.g.w u ≤ 2) ∧ (∀ b, b < 2 → 0 ≤ exC.maxW b) ∧
    total exC.g + 2 ≤ exC.maxW 0 + exC.maxW 1 + 1 := by decide +kernel
example : (∀ b, b < 2 → 0 ≤ exC.perfect b) ∧ total exC.g ≤ exC.perfect 0 + exC.perfect 1 ∧ 0 < exC.perfect 1 := by decide +kernel

end Verif.FlatBip
