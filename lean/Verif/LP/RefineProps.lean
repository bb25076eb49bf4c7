import Verif.LP.RefineLemmas

/-!
# C39: label propagation refinement
-/

namespace Verif.LP
open Verif.Partitioned (Op PC weightOf replay Limited)
open Finset (range mem_range)

/-! ## Several threads -/

/-- The refiner starts: no thread works, every node is in an existing block and the block weights are right
(`lp_refiner.cc` 60-75). -/
structure Start (c : Cfg) (T : Nat) (s : State) : Prop where
  core : Partitioned.Init c.g.n c.k T c.g.w s.core
  look : ∀ t, t < T → s.look t = none
  assigned : ∀ u, u < c.g.n → ∃ b, s.core.part u = some b

theorem Start.inv {c : Cfg} {T : Nat} {s : State} (h : Start c T s) : Inv c T s.core.part s := by
  refine ⟨fun t ht q hq => ?_, fun t ht q hq => ?_, fun t ht => ?_, fun v b hv => Or.inl hv, h.core.range, ?_, ?_⟩
  · rw [h.look t ht] at hq; cases hq
  · rw [h.look t ht] at hq; cases hq
  · rw [h.core.idle t ht]; trivial
  · intro h1 u src dst mx h2 he
    rw [h.core.hist] at he
    exact absurd he (by simp)
  · intro o ho
    rw [h.core.hist] at ho
    cases ho

/-- The operations of the refiner: moves with the maximum weight of the target as limit. -/
def Allowed (c : Cfg) : Op → Prop
  | .move _ _ dst mx => mx = c.maxW dst
  | .setBlock _ _ => False

/-- The refiner's effects on the partitioned graph are those of its moves. -/
theorem reach_core {c : Cfg} (hg : c.g.WF) {T : Nat} {s0 s : State} (h0 : Start c T s0) (hr : Reach c T s0 s) :
    Inv c T s0.core.part s ∧ Partitioned.Reach c.g.n c.k T c.g.w (Allowed c) s0.core s.core := by
  induction hr with
  | refl => exact ⟨h0.inv, .refl _⟩
  | step _ hs ih =>
    obtain ⟨hi, hp⟩ := ih
    refine ⟨inv_step hg hi hs, ?_⟩
    cases hs with
    | start => exact hp
    | see => exact hp
    | giveUp => exact hp
    | keep => exact hp
    | move t q ownW r ht hl htodo hr hne =>
      obtain ⟨a1, a2, a3, a4, a5, a6⟩ := hi.look t ht q hl
      have hbest : (r.best, r.gain) ∈ q.m := by
        rcases hr.spec.1 with ⟨e, _⟩ | ⟨e, _⟩
        · exact absurd (by rw [a3, e]) hne
        · exact e
      exact .step hp (.call _ t _ ht a1 rfl ⟨a2, a4, (a6 _ hbest).1, a3⟩ fun t' ht' => (hi.free t ht q hl t' ht').1)
    | core t ht hbusy => exact .step hp (.next _ t ht hbusy)

theorem reach_mono {n k T : Nat} {w : Nat → Int} {A B : Op → Prop} (h : ∀ o, A o → B o)
    {s s' : Partitioned.State} (hr : Partitioned.Reach n k T w A s s') : Partitioned.Reach n k T w B s s' := by
  induction hr with
  | refl => exact .refl _
  | step _ hs ih =>
    refine .step ih ?_
    cases hs with
    | call t op ht hidle hA hok hfree => exact .call _ t op ht hidle (h _ hA) hok hfree
    | next t ht hbusy => exact .next _ t ht hbusy

/-- **C39, balance.**  Any number of threads refine, in any interleaving of their atomic accesses: at every moment
no block is heavier than its maximum weight, or its weight before the refinement. -/
theorem C39_never_overloaded (c : Cfg) (hg : c.g.WF) (hw : ∀ u, 0 ≤ c.g.w u) (T : Nat) (s0 s : State)
    (h0 : Start c T s0) (hr : Reach c T s0 s) (b : Nat) : s.core.bw b ≤ max (s0.core.bw b) (c.maxW b) := by
  refine Partitioned.C18_never_overloaded c.g.n c.k T c.g.w hw b (c.maxW b) s0.core s.core h0.core.idle
    (reach_mono ?_ (reach_core hg h0 hr).2)
  intro o ho
  cases o with
  | move _ _ dst mx =>
    intro e
    rw [← e]
    exact le_of_eq ho
  | setBlock => exact ho.elim

/-- **C39, weights.**  Whenever no move is in flight the stored block weights are those of the partition, every node
is in an existing block, and no block weighs more than its maximum weight, or its weight before the refinement. -/
theorem C39_weights (c : Cfg) (hg : c.g.WF) (hw : ∀ u, 0 ≤ c.g.w u) (T : Nat) (s0 s : State)
    (h0 : Start c T s0) (hr : Reach c T s0 s) (hidle : ∀ t, t < T → s.core.pc t = .idle) :
    (∀ b, s.core.bw b = weightOf c.g.n c.g.w s.core.part b) ∧
      (∀ u, u < c.g.n → ∃ b, b < c.k ∧ s.core.part u = some b) ∧
      ∀ b, weightOf c.g.n c.g.w s.core.part b ≤ max (weightOf c.g.n c.g.w s0.core.part b) (c.maxW b) := by
  have hp := (reach_core hg h0 hr).2
  obtain ⟨h1, h2, h3⟩ := Partitioned.C17_block_weights _ _ _ _ _ _ _ h0.core hp hidle
  refine ⟨h1, fun u hu => ?_, fun b => ?_⟩
  · have : ∀ (l : List (Op × Bool)) (p : Nat → Option Nat), (∃ b, p u = some b) → ∃ b, replay p l u = some b := by
      intro l
      induction l with
      | nil => intro p h; exact h
      | cons o l ih =>
        intro p h
        refine ih _ ?_
        have hupd : ∀ (v d : Nat), ∃ b, upd p v (some d) u = some b := fun v d => by
          by_cases e : u = v
          · subst e; exact ⟨d, upd_same ..⟩
          · rw [upd_ne _ _ e]; exact h
        obtain ⟨op, ok⟩ := o
        cases op <;> cases ok
        · exact h
        · exact hupd _ _
        · exact h
        · exact hupd _ _
    obtain ⟨b, hb⟩ := this s.core.hist s0.core.part (h0.assigned u hu)
    rw [← h2] at hb
    exact ⟨b, h3 u b hu hb, hb⟩
  · rw [← h1, ← h0.core.weights]
    exact C39_never_overloaded c hg hw T s0 s h0 hr b

/-- The block of node `v` after some moves. -/
def blockAfter (part0 : Nat → Option Nat) (h : List (Op × Bool)) (v : Nat) : Option Nat := replay part0 h v

theorem was_iff (part0 : Nat → Option Nat) (h : List (Op × Bool)) (hm : ∀ o ∈ h, ∃ u src dst mx, o.1 = Op.move u src dst mx)
    (v b : Nat) (hw : Was part0 h v b) : ∃ h1 h2, h = h1 ++ h2 ∧ blockAfter part0 h1 v = some b := by
  rcases hw with hw | ⟨src, mx, hw⟩
  · exact ⟨[], h, rfl, hw⟩
  · obtain ⟨a, d, rfl⟩ := List.append_of_mem hw
    refine ⟨a ++ [(.move v src b mx, true)], d, by simp, ?_⟩
    show replay part0 _ v = _
    unfold replay
    rw [List.foldl_append]
    exact upd_same ..

/-- **C39, adjacency**, partial: that the neighbour is still there when the node moves is false
(`C39_not_adjacent_when_moving`), and proved for one thread (`C39_sequential_adjacent`).  Every executed move takes a node `u` to a block in which, at some moment before the move,
a neighbour of `u` was; the limit the move was checked against is the maximum weight of that block. -/
theorem C39_only_adjacent_partial (c : Cfg) (hg : c.g.WF) (T : Nat) (s0 s : State) (h0 : Start c T s0) (hr : Reach c T s0 s)
    (h1 h2 : List (Op × Bool)) (u src dst : Nat) (mx : Int)
    (hh : s.core.hist = h1 ++ (.move u src dst mx, true) :: h2) :
    mx = c.maxW dst ∧
      ∃ e ∈ c.g.adj u, c.accept u e.1 = true ∧ ∃ h1a h1b, h1 = h1a ++ h1b ∧ blockAfter s0.core.part h1a e.1 = some dst := by
  have hi := (reach_core hg h0 hr).1
  obtain ⟨⟨e, he, ha, hw⟩, hm⟩ := hi.hist h1 u src dst mx h2 hh
  refine ⟨hm, e, he, ha, was_iff _ _ (fun o ho => hi.moves o ?_) _ _ hw⟩
  rw [hh]
  exact List.mem_append_left _ ho

/-- Nothing but moves happens: the partition is the old one changed by the executed moves, each of which starts in
an existing block. -/
theorem C39_only_moves (c : Cfg) (hg : c.g.WF) (T : Nat) (s0 s : State) (h0 : Start c T s0) (hr : Reach c T s0 s) :
    (∀ u, s.core.part u = blockAfter s0.core.part s.core.hist u) ∧
      ∀ o ∈ s.core.hist, ∃ u src dst mx, o.1 = .move u src dst mx := by
  have h := reach_core hg h0 hr
  exact ⟨fun u => by rw [(h0.core.inv.reach h.2).hist]; rfl, h.1.moves⟩

/-! ## One thread -/

/-- The weight of block `b`. -/
def blockWeight (c : Cfg) (p : Nat → Nat) (b : Nat) : Int := ∑ u ∈ range c.g.n, if p u = b then c.g.w u else 0

theorem blockWeight_upd (c : Cfg) (p : Nat → Nat) {u : Nat} (hu : u < c.g.n) (d b : Nat) :
    blockWeight c (upd p u d) b = blockWeight c p b + (if d = b then c.g.w u else 0) - (if p u = b then c.g.w u else 0) := by
  unfold blockWeight
  have := sum_upd (range c.g.n) (fun v x => if x = b then c.g.w v else 0) p (mem_range.2 hu) d
  rw [this]
  omega

theorem tryMove_cases (c : Cfg) (s : Seq) (u own best : Nat) (gain : Int) :
    (tryMove c s u own best gain).1 = s ∨
      (s.part u ≠ best ∧ s.bw best + c.g.w u ≤ c.maxW best ∧ (tryMove c s u own best gain).1 =
        { part := upd s.part u best, bw := upd (upd s.bw best (s.bw best + c.g.w u)) own
            (upd s.bw best (s.bw best + c.g.w u) own - c.g.w u), gain := s.gain + gain }) := by
  unfold tryMove
  by_cases h : s.part u ≠ best
  · rw [if_pos h]
    by_cases h' : s.bw best + c.g.w u ≤ c.maxW best
    · rw [if_pos h']; exact Or.inr ⟨h, h', rfl⟩
    · rw [if_neg h']; exact Or.inl rfl
  · rw [if_neg h]; exact Or.inl rfl

/-- **C39, one thread.**  On a symmetric graph without self loops, when all neighbours of a node are looked at and
accepted: the sum of the cut and of the gain counted by the refiner never changes and the counted gain never
decreases, so no sequence of visits of nodes, with any tie breaking, increases the cut.  The block weights remain
right and no block exceeds its maximum weight or its former weight. -/
theorem C39_sequential (c : Cfg) (hg : c.g.WF) (hs : c.g.Symm) (hloop : ∀ u, u < c.g.n → c.g.wt u u = 0)
    (hw : ∀ u, u < c.g.n → 0 ≤ c.g.w u)
    (hlim : ∀ u, u < c.g.n → (c.g.adj u).length ≤ c.lim) (hacc : ∀ u v, c.accept u v = true) (s s' : Seq)
    (hk : ∀ u, u < c.g.n → s.part u < c.k)
    (h0 : ∀ b, s.bw b = blockWeight c s.part b) (hr : Visits c s s') :
    c.g.cut s'.part + s'.gain = c.g.cut s.part + s.gain ∧ s.gain ≤ s'.gain ∧
      c.g.cut s'.part ≤ c.g.cut s.part ∧
      (∀ b, s'.bw b = blockWeight c s'.part b) ∧ (∀ u, u < c.g.n → s'.part u < c.k) ∧
      ∀ b, blockWeight c s'.part b ≤ max (blockWeight c s.part b) (c.maxW b) := by
  suffices h : c.g.cut s'.part + s'.gain = c.g.cut s.part + s.gain ∧ s.gain ≤ s'.gain ∧
      (∀ b, s'.bw b = blockWeight c s'.part b) ∧ (∀ u, u < c.g.n → s'.part u < c.k) ∧
      ∀ b, blockWeight c s'.part b ≤ max (blockWeight c s.part b) (c.maxW b) by
    obtain ⟨a1, a2, a3, a4, a5⟩ := h
    exact ⟨a1, a2, by omega, a3, a4, a5⟩
  induction hr with
  | refl => exact ⟨rfl, le_refl _, h0, hk, fun b => le_max_left _ _⟩
  | @step s1 s2 u _ hu hv ih =>
    obtain ⟨a1, a2, a3, a4, a5⟩ := ih
    obtain ⟨best, gain, rfl, hgain⟩ := visit_gain hv
    rcases tryMove_cases c s1 u (s1.part u) best gain with e | ⟨hne, hfit, e⟩
    · rw [e]; exact ⟨a1, a2, a3, a4, a5⟩
    · rw [e]
      rcases hgain with hgain | ⟨⟨e', he', -, hp'⟩, hpos, hgain⟩
      · exact absurd hgain.symm hne
      · rw [rate_conn c u _ (hlim u hu) (hacc u), rate_conn c u _ (hlim u hu) (hacc u)] at hgain
        have hcut := Gains.cut_upd c.g hg hs s1.part hu (hloop u hu) best
        have hbw : ∀ b, blockWeight c (upd s1.part u best) b = upd (upd s1.bw best (s1.bw best + c.g.w u)) (s1.part u)
            (upd s1.bw best (s1.bw best + c.g.w u) (s1.part u) - c.g.w u) b := by
          intro b
          rw [blockWeight_upd c s1.part hu, ← a3]
          rw [show upd s1.bw best (s1.bw best + c.g.w u) (s1.part u) = s1.bw (s1.part u) from upd_ne _ _ hne]
          by_cases e1 : b = s1.part u
          · subst e1
            rw [upd_same, if_neg (Ne.symm hne), if_pos rfl]; omega
          · rw [upd_ne _ _ e1, if_neg (Ne.symm e1)]
            by_cases e2 : b = best
            · subst e2; rw [upd_same, if_pos rfl]; omega
            · rw [upd_ne _ _ e2, if_neg (Ne.symm e2)]; omega
        refine ⟨?_, ?_, fun b => (hbw b).symm, fun v hv => ?_, fun b => ?_⟩
        · show c.g.cut (upd s1.part u best) + (s1.gain + gain) = _
          omega
        · show s.gain ≤ s1.gain + gain
          omega
        · show upd s1.part u best v < c.k
          by_cases e1 : v = u
          · subst e1
            rw [upd_same, ← hp']
            exact a4 _ (hg v hu e' (List.mem_of_mem_take he'))
          · rw [upd_ne _ _ e1]; exact a4 v hv
        · show blockWeight c (upd s1.part u best) b ≤ _
          have h1 := a5 b
          have h2 := hw u hu
          rw [blockWeight_upd c s1.part hu]
          by_cases e1 : best = b
          · subst e1
            rw [if_pos rfl, if_neg hne, ← a3]
            omega
          · rw [if_neg e1]
            split <;> omega

/-- **C39, one thread, adjacency.**  A visit changes the block of no other node, and if it changes the block of `u`
then a neighbour is in the new block. -/
theorem C39_sequential_adjacent (c : Cfg) (s s' : Seq) (u : Nat) (h : Visit c s u s') :
    (∀ v, v ≠ u → s'.part v = s.part v) ∧
      (s'.part u ≠ s.part u → ∃ e ∈ c.g.adj u, c.accept u e.1 = true ∧ e.1 ≠ u ∧ s'.part e.1 = s'.part u) := by
  obtain ⟨best, gain, rfl, hgain⟩ := visit_gain h
  rcases tryMove_cases c s u (s.part u) best gain with e | ⟨hne, hfit, e⟩
  · rw [e]; exact ⟨fun _ _ => rfl, fun h => absurd rfl h⟩
  · rw [e]
    refine ⟨fun v hv => upd_ne _ _ hv, fun _ => ?_⟩
    rcases hgain with hgain | ⟨⟨e', he', ha, hp'⟩, _, _⟩
    · exact absurd hgain.symm hne
    · have hu : e'.1 ≠ u := by
        intro e1
        rw [e1] at hp'
        exact hne hp'
      refine ⟨e', List.mem_of_mem_take he', ha, hu, ?_⟩
      show upd s.part u best e'.1 = upd s.part u best u
      rw [upd_ne _ _ hu, upd_same, hp']

/-- When the number of neighbours is limited the counted gain may be wrong and the cut may grow: node 0 with edges
of weights 1 and 5, and a limit of one neighbour. -/
def limCfg : Cfg where
  g := { n := 3, w := fun _ => 1, adj := fun u => if u = 0 then [(1, 1), (2, 5)] else if u = 1 then [(0, 1)] else [(0, 5)] }
  k := 2
  maxW := fun _ => 3
  accept := fun _ _ => true
  lim := 1
  uniform := true

def limStart : Seq := ⟨fun u => if u = 1 then 1 else 0, fun b => if b = 0 then 2 else 1, 0⟩

theorem C39_limited_not_monotone : ∃ s', Visits limCfg limStart s' ∧
    limCfg.g.cut limStart.part = 1 ∧ limCfg.g.cut s'.part = 5 ∧ s'.gain = 1 := by
  refine ⟨_, .step 0 (.refl _) (by decide)
    (.mk (select (.refine true) ⟨1, 0, 2, fun _ => 3, false⟩ [⟨1, 1, 1, true⟩] 0 0)
      (.single [⟨1, 1, 1, true⟩] 0 0 (.refl _) (by decide))), ?_, ?_, ?_⟩
  all_goals decide

/-! ## Non-vacuity -/

/-- A path of four nodes with edge weights 1, 3, 1. -/
def exCfg : Cfg where
  g := { n := 4, w := fun _ => 1, adj := fun u =>
    if u = 0 then [(1, 1)] else if u = 1 then [(0, 1), (2, 3)] else if u = 2 then [(1, 3), (3, 1)] else if u = 3 then [(2, 1)]
    else [] }
  k := 2
  maxW := fun _ => 4
  accept := fun _ _ => true
  lim := 10
  uniform := true

def exSeq : Seq := ⟨fun u => u / 2, fun b => if b = 0 ∨ b = 1 then 2 else 0, 0⟩

theorem exWF : exCfg.g.WF := by
  intro u hu e he
  have : u = 0 ∨ u = 1 ∨ u = 2 ∨ u = 3 := by have : u < 4 := hu; omega
  rcases this with rfl | rfl | rfl | rfl <;> revert e <;> decide

theorem exWeights (b : Nat) : (if b = 0 ∨ b = 1 then 2 else 0 : Int) = blockWeight exCfg exSeq.part b := by
  unfold blockWeight
  show _ = ∑ u ∈ range 4, if u / 2 = b then (1 : Int) else 0
  rw [Finset.sum_range_succ, Finset.sum_range_succ, Finset.sum_range_succ, Finset.sum_range_succ, Finset.sum_range_zero]
  by_cases h0 : b = 0
  · subst h0; rfl
  · by_cases h1 : b = 1
    · subst h1; rfl
    · simp [h0, h1, Ne.symm h0, Ne.symm h1]

example : exCfg.g.WF ∧ exCfg.g.Symm ∧ (∀ u, u < exCfg.g.n → exCfg.g.wt u u = 0) ∧ (∀ u, u < exCfg.g.n → 0 ≤ exCfg.g.w u) ∧
    (∀ u, u < exCfg.g.n → (exCfg.g.adj u).length ≤ exCfg.lim) ∧ (∀ u, u < exCfg.g.n → exSeq.part u < exCfg.k) ∧
    (∀ b, exSeq.bw b = blockWeight exCfg exSeq.part b) ∧
    ∃ s', Visits exCfg exSeq s' ∧ s'.gain = 2 ∧ exCfg.g.cut exSeq.part = 3 ∧ exCfg.g.cut s'.part = 1 := by
  refine ⟨exWF, ?_, by decide, by decide, by decide, by decide, exWeights, _, .step 1 (.refl _) (by decide)
    (.mk (select (.refine true) ⟨1, 0, 2, fun _ => 4, false⟩ [⟨0, 1, 2, true⟩, ⟨1, 3, 2, true⟩] 0 0)
      (.single [⟨0, 1, 2, true⟩, ⟨1, 3, 2, true⟩] 0 0 (.refl _) (by decide))), ?_, ?_, ?_⟩
  · intro u v c hu hv
    have h1 : u = 0 ∨ u = 1 ∨ u = 2 ∨ u = 3 := (by simp only [exCfg] at hu; omega)
    have h2 : v = 0 ∨ v = 1 ∨ v = 2 ∨ v = 3 := (by simp only [exCfg] at hv; omega)
    rcases h1 with rfl | rfl | rfl | rfl <;> rcases h2 with rfl | rfl | rfl | rfl <;>
      simp [exCfg, List.count_cons, List.count_nil]
  all_goals decide

def exStart : State where
  core := { part := fun u => some (u / 2), bw := fun b => if b = 0 ∨ b = 1 then 2 else 0, pc := fun _ => .idle, hist := [] }
  look := fun _ => none

theorem exStart_ok : Start exCfg 2 exStart := by
  refine ⟨⟨fun _ _ => rfl, rfl, ?_, ?_⟩, fun _ _ => rfl, fun u _ => ⟨_, rfl⟩⟩
  · intro u b hu h
    have : u < 4 := hu
    cases h
    show u / 2 < 2
    omega
  · intro b
    rw [show exStart.core.bw b = _ from exWeights b]
    unfold blockWeight weightOf
    refine Finset.sum_congr rfl fun u _ => ?_
    show (if u / 2 = b then _ else _) = if some (u / 2) = some b then _ else _
    simp only [Option.some.injEq]

/-- Two threads look at the nodes 1 and 2 at the same time and both move: they swap their blocks.  Node 2 moves to
block 0 because its neighbour 1 is there, but when it moves all its neighbours are in block 1; the cut grows. -/
theorem C39_not_adjacent_when_moving : ∃ s h1, Reach exCfg 2 exStart s ∧ (∀ t, t < 2 → s.core.pc t = .idle) ∧
    s.core.hist = h1 ++ [(.move 2 1 0 4, true)] ∧
    (∀ e ∈ exCfg.g.adj 2, blockAfter exStart.core.part h1 e.1 = some 1) ∧
    s.core.bw 0 = 2 ∧ s.core.bw 1 = 2 := by
  refine ⟨_, [(.move 1 0 1 4, true)], .step (.step (.step (.step (.step (.step (.step (.step (.step (.step (.step (.step (.step (.step (.step (.step
    (.refl _)
    (.start _ 0 1 0 (by decide) (by decide) rfl rfl rfl (by decide)))
    (.start _ 1 2 1 (by decide) (by decide) rfl rfl rfl ?_))
    (.see _ 0 _ [] [(2, 3)] (0, 1) 0 (by decide) rfl rfl rfl))
    (.see _ 0 _ [] [] (2, 3) 1 (by decide) rfl rfl rfl))
    (.see _ 1 _ [] [(3, 1)] (1, 3) 0 (by decide) rfl rfl rfl))
    (.see _ 1 _ [] [] (3, 1) 1 (by decide) rfl rfl rfl))
    (.move _ 0 _ 2 (select (.refine true) ⟨1, 0, 2, fun _ => 4, false⟩ [⟨0, 1, 2, true⟩, ⟨1, 3, 2, true⟩] 0 0) (by decide) rfl rfl
      (.single [⟨0, 1, 2, true⟩, ⟨1, 3, 2, true⟩] 0 0 (.refl _) (by decide)) (by decide)))
    (.move _ 1 _ 2 (select (.refine true) ⟨1, 1, 2, fun _ => 4, false⟩ [⟨0, 3, 2, true⟩, ⟨1, 1, 2, true⟩] 0 0) (by decide) rfl rfl
      (.single [⟨0, 3, 2, true⟩, ⟨1, 1, 2, true⟩] 0 0 (.refl _) (by decide)) (by decide)))
    (.core _ 0 (by decide) (by decide))) (.core _ 1 (by decide) (by decide))) (.core _ 0 (by decide) (by decide)))
    (.core _ 1 (by decide) (by decide))) (.core _ 0 (by decide) (by decide))) (.core _ 1 (by decide) (by decide)))
    (.core _ 0 (by decide) (by decide))) (.core _ 1 (by decide) (by decide)), ?_, ?_, ?_, ?_, ?_⟩
  · intro t' ht'
    have : t' = 0 ∨ t' = 1 := by omega
    rcases this with rfl | rfl
    · refine ⟨by decide, fun q hq => ?_⟩
      cases hq
      decide
    · refine ⟨by decide, fun q hq => ?_⟩
      cases hq
  all_goals decide

end Verif.LP
