import Verif.Jet.Progress

/-!
# C42: Jet refinement never returns a worse cut
-/

namespace Verif.Jet
open Verif.Partitioned (Op weightOf replay)
open Verif.Gains (Move applyMoves ValidMoves)
open Verif.SparseGains (Layout Interleaved Sorted)
open Finset (range mem_range)

/-- **C42.**  Whatever moves are selected, in whatever order threads execute them, and whatever the balancer does: when Jet
returns, all nodes are assigned, the block weights are exact, the partition is the input or one of those seen at the ends of
iterations, and its cut is not larger than the cut of the input or of any partition seen at the end of an iteration. -/
theorem C42_cut (c : Cfg) (ok : Ok c) (part : Nat → Option Nat) (bw : Nat → Int) (hv : Valid c part bw) (s0 s : St)
    (h0 : Start c part bw s0) (hr : Reach c s0 s) (hd : s.ctrl = .done) :
    (∀ u, u < c.g.n → ∃ b, s.part u = some b ∧ b < c.k) ∧ (∀ b, s.bw b = weightOf c.g.n c.g.w s.part b) ∧
    (∃ p ∈ blk part :: s.seen, ∀ u, u < c.g.n → s.part u = some (p u)) ∧
    ∀ p ∈ blk part :: s.seen, c.g.cut (blk s.part) ≤ c.g.cut p := by
  have h := Inv.of_reach ok hv h0 hr
  have hh := h.here (by unfold Here; rw [hd]; trivial)
  refine ⟨h.valid.assigned, h.valid.weights, ?_, fun p hp => ?_⟩
  · obtain ⟨p, hp, he⟩ := h.bestMem
    exact ⟨p, hp, fun u hu => by rw [h.valid.some hu, hh u hu, he u hu]⟩
  · rw [cut_congr hh, ← h.bestCut]
    exact h.bestMin p hp

/-- **C42, gain cache.**  Before every iteration, in particular when a round starts, the gain cache agrees with the partition: all
connections, gains and border flags are right, and all updates by further moves will succeed. -/
theorem C42_gain_cache (c : Cfg) (ok : Ok c) (part : Nat → Option Nat) (bw : Nat → Int) (hv : Valid c part bw) (s0 s : St)
    (h0 : Start c part bw s0) (hr : Reach c s0 s) :
    (∀ u, u < c.g.n → ∀ b, b < c.k → SparseGains.conn? s.L s.gc.cache u b = some (c.g.conn u fun v => blk s.part v = b)) ∧
    (∀ u, u < c.g.n → ∀ a b, a < c.k → b < c.k → SparseGains.gain? s.L s.gc.cache u a b =
      some (c.g.conn u (fun v => blk s.part v = b) - c.g.conn u (fun v => blk s.part v = a))) ∧
    (∀ u, u < c.g.n → ∃ r, SparseGains.isBorder? s.L s.gc u (blk s.part u) = some r ∧
      (r = true ↔ ∃ e ∈ c.g.adj u, blk s.part e.1 ≠ blk s.part u)) ∧
    ∀ ms evs, ValidMoves c.g.n c.k (blk s.part) ms → Interleaved c.g ms evs →
      ∃ cache, evs.foldlM (SparseGains.step? c.g s.L) s.gc.cache = some cache := by
  have h := Inv.of_reach ok hv h0 hr
  have e := h.cache.exact ok
  exact ⟨e.conn, e.gain, e.border, fun ms evs h1 h2 => h.cache.ex_cache ok h1 h2⟩

/-- **C42, moves.**  In every iteration the selection and the filter succeed; nodes choose a block of largest gain, and only if they
were not moved by Jet in the previous iteration (`Chooses`); exactly those moves are executed that improve the cut
when the moves with higher priority are executed (`Filters`). -/
theorem C42_moves (c : Cfg) (ok : Ok c) (part : Nat → Option Nat) (bw : Nat → Int) (hv : Valid c part bw) (s0 s : St)
    (h0 : Start c part bw s0) (hr : Reach c s0 s) (r : Nat) :
    ∃ (next : Nat → Nat) (lock : Nat → Bool), ∀ u, u < c.g.n →
      findMove? c r s u = some (next u) ∧ Chooses c r (blk s.part) (s.lock u) u (next u) ∧
      filterMove? c s next u = some (lock u) ∧ Filters c.g (blk s.part) next u (lock u) := by
  have h := Inv.of_reach ok hv h0 hr
  obtain ⟨next, h1⟩ := h.find ok r
  obtain ⟨lock, h2⟩ := h.filter ok (next := next) fun u hu => (h1 u hu).2.1
  exact ⟨next, lock, fun u hu => ⟨(h1 u hu).1, (h1 u hu).2, (h2 u hu).1, (h2 u hu).2⟩⟩

/-- **C42, balance.**  If no limit is negative, every partition at the end of an iteration is balanced, and if the input is
balanced then so is the result. -/
theorem C42_balanced (c : Cfg) (ok : Ok c) (hm : ∀ b, b < c.k → 0 ≤ c.maxW b) (part : Nat → Option Nat) (bw : Nat → Int) (hv : Valid c part bw)
    (s0 s : St) (h0 : Start c part bw s0) (hr : Reach c s0 s) :
    (∀ p ∈ s.seen, ∀ b, b < c.k → weightOf c.g.n c.g.w (fun u => some (p u)) b ≤ c.maxW b) ∧
    ((∀ b, b < c.k → weightOf c.g.n c.g.w part b ≤ c.maxW b) → s.ctrl = .done →
      ∀ b, b < c.k → weightOf c.g.n c.g.w s.part b ≤ c.maxW b) := by
  have h := Inv.of_reach ok hv h0 hr
  refine ⟨h.balanced hm, fun hb hd b hlt => ?_⟩
  obtain ⟨_, _, ⟨p, hp, he⟩, _⟩ := C42_cut c ok part bw hv s0 s h0 hr hd
  rw [weightOf_congr he]
  rcases List.mem_cons.1 hp with rfl | hp
  · rw [weightOf_congr fun u hu => (hv.some hu).symm]; exact hb b hlt
  · exact h.balanced hm p hp b hlt

/-- **C42, effort.**  The number of iterations is at most the number of rounds times the configured number per round. -/
theorem C42_iterations (c : Cfg) (ok : Ok c) (part : Nat → Option Nat) (bw : Nat → Int) (hv : Valid c part bw) (s0 s : St)
    (h0 : Start c part bw s0) (hr : Reach c s0 s) : s.seen.length ≤ c.rounds * limit c.iterations := by
  have h := Inv.of_reach ok hv h0 hr
  have h1 := h.count
  have h2 := h.ctrl
  have mono : ∀ a b, a ≤ b → a * limit c.iterations ≤ b * limit c.iterations := fun a b h => Nat.mul_le_mul_right _ h
  cases hc : s.ctrl with
  | round r =>
    rw [hc] at h1 h2
    exact le_trans h1 (mono r c.rounds h2)
  | iter r i f =>
    rw [hc] at h1 h2
    have h1 : s.seen.length ≤ r * limit c.iterations + i := h1
    have h3 := mono (r + 1) c.rounds h2.1
    rw [Nat.add_mul, Nat.one_mul] at h3
    have := h2.2
    omega
  | rollback r =>
    rw [hc] at h1 h2
    exact le_trans h1 (mono (r + 1) c.rounds h2)
  | done =>
    rw [hc] at h1
    exact h1

/-- **C42, progress.**  As long as Jet has not returned it can go on, provided that the balancer returns for every partition
(which it need not: `C41_not_terminating`). -/
theorem C42_progress (c : Cfg) (ok : Ok c) (hT : 0 < c.T) (part : Nat → Option Nat) (bw : Nat → Int) (hv : Valid c part bw)
    (hbal : ∀ part bw, Valid c part bw →
      ∃ b b', b.core = quiet part bw ∧ Balancer.Start c.balancer b ∧ Balancer.Run c.balancer b b')
    (s0 s : St) (h0 : Start c part bw s0) (hr : Reach c s0 s) (hd : s.ctrl ≠ .done) : ∃ s', Step c s s' := by
  have h := Inv.of_reach ok hv h0 hr
  cases hc : s.ctrl with
  | round r =>
    by_cases hlt : r < c.rounds
    · exact ⟨_, .enter s r hc hlt⟩
    · exact ⟨_, .leave s r hc (by omega)⟩
  | iter r i f =>
    obtain ⟨next, h1⟩ := h.find ok r
    obtain ⟨lock, h2⟩ := h.filter ok (next := next) fun u hu => (h1 u hu).2.1
    obtain ⟨p, hp⟩ := exec_ex hT h.valid (us := locked c lock) (f := next) fun u hu => by
      have := List.mem_range.1 (List.mem_filter.1 hu).1
      exact ⟨this, (h1 u this).2.1⟩
    have hvp := (exec_sets h.valid (List.nodup_range.filter _) (fun u _ hu => (h1 u hu).2.1) hp).1
    obtain ⟨b, b', e1, e2, e3⟩ := hbal p.part p.bw hvp
    obtain ⟨cache, hi⟩ := h.iter_ex ok i f (fun u hu => (h1 u hu).1) (fun u hu => (h2 u hu).1) hp e1 e2 e3
    exact ⟨_, .iter s _ r i f hc hi⟩
  | rollback r =>
    cases hb : s.lastBest with
    | true => exact ⟨_, .keep s r hc hb⟩
    | false =>
      obtain ⟨p, hp⟩ := exec_ex hT h.valid (us := List.range c.g.n) (f := s.best) fun u hu =>
        ⟨List.mem_range.1 hu, h.bestLt u (List.mem_range.1 hu)⟩
      have hvp := (exec_sets h.valid List.nodup_range (fun u _ hu => h.bestLt u hu) hp).1
      obtain ⟨L, gc, hi⟩ := initCache_ex ok hvp s.L.off s.gc
      exact ⟨_, .rollback s r p L gc hc hb hp hi⟩
  | done => exact absurd hc hd

/-! ## Jet prefers a small cut to balance -/

/-- Two connected nodes of weight `w`, two blocks with limit 3; one round with one iteration. -/
def exCfg (w : Int) : Cfg where
  g := (Balancer.exCfg w).g
  k := 2
  maxW := fun _ => 3
  T := 1
  W := 32
  threshold := 0
  sorted := false
  bsize := fun _ => 0
  nb := 0
  rounds := 1
  iterations := 1
  fruitless := 0
  accept := fun _ gain _ => decide (0 < gain)
  improved := fun best cut => decide (cut < best)

theorem two {u : Nat} (h : u < 2) : u = 0 ∨ u = 1 := by omega

theorem exOk (w : Int) (hw : 0 ≤ w) : Ok (exCfg w) where
  wf := Balancer.exWF w
  symm := by
    intro u v x hu hv
    rcases two hu with rfl | rfl <;> rcases two hv with rfl | rfl <;>
      simp [exCfg, Balancer.exCfg, List.count_cons, List.count_nil]
  pos := by
    intro u hu e he
    rcases two hu with rfl | rfl
    · have he : e ∈ [(1, (1 : Int))] := he
      rw [List.mem_singleton] at he; subst he; exact (by decide : (0 : Int) < 1)
    · have he : e ∈ [(0, (1 : Int))] := he
      rw [List.mem_singleton] at he; subst he; exact (by decide : (0 : Int) < 1)
  nodes := fun _ => hw
  k2 := (by decide : 2 ≤ 2)
  k32 := (by decide : 2 < 2 ^ 32)
  buckets := fun h => Bool.noConfusion h
  fit := by
    intro u hu
    rcases two hu with rfl | rfl <;> exact (by decide : (1 : Int) < 2 ^ 31)
  fitTab := ⟨1, (by decide : 2 ≤ 2 ^ 1), fun j hj => by
    have hj : 2 ≤ 2 ^ j := hj
    cases j with
    | zero => exact absurd hj (by decide)
    | succ j => omega, (by decide : 1 ≤ 32), fun u hu h => absurd h (Nat.not_lt_zero _)⟩

/-- Both nodes in block 0. -/
def exPart : Nat → Option Nat := fun u => if u < 2 then some 0 else none

theorem exValid : Valid (exCfg 2) exPart (fun b => if b = 0 then 2 + 2 else 0) :=
  ⟨fun u hu => ⟨0, if_pos hu, by decide⟩, (Balancer.exStart_ok 2 (by decide)).core.weights⟩

/-- **Jet prefers a small cut to balance.**  If an overloaded partition is given to Jet then, although its balancer finds a
balanced one, the result is overloaded, because the cut of the input is smaller. -/
theorem C42_not_balanced : ∃ (c : Cfg) (part : Nat → Option Nat) (bw : Nat → Int) (s0 s : St), Ok c ∧ (∀ b, b < c.k → 0 ≤ c.maxW b) ∧
    Valid c part bw ∧ Start c part bw s0 ∧ Reach c s0 s ∧ s.ctrl = .done ∧
    (∃ p ∈ s.seen, ∀ b, b < c.k → weightOf c.g.n c.g.w (fun u => some (p u)) b ≤ c.maxW b) ∧
    ∃ b, b < c.k ∧ c.maxW b < weightOf c.g.n c.g.w s.part b := by
  have ok := exOk 2 (by decide)
  have hm : ∀ b, b < (exCfg 2).k → 0 ≤ (exCfg 2).maxW b := fun _ _ => (by decide : (0 : Int) ≤ 3)
  obtain ⟨s0, h0⟩ := start_ex ok exValid
  have hi0 := h0.inv ok exValid
  have hpart := h0.isPart
  have hbw := h0.isBw
  -- the round is entered
  let s1 : St := { s0 with ctrl := .iter 0 0 0 }
  have r1 : Reach (exCfg 2) s0 s1 := .step (.refl _) (.enter s0 0 h0.ctrl Nat.one_pos)
  have hi1 : Inv (exCfg 2) (blk exPart) s1 := Inv.of_reach ok exValid h0 r1
  have hblk : ∀ u, u < 2 → blk s1.part u = 0 := by
    intro u hu
    show blk s0.part u = 0
    rw [hpart]
    rcases two hu with rfl | rfl <;> rfl
  -- nothing is moved
  have hnext : ∀ u, u < (exCfg 2).g.n → findMove? (exCfg 2) 0 s1 u = some ((fun _ => 0) u) := by
    intro u hu
    obtain ⟨next, hn⟩ := hi1.find ok 0
    obtain ⟨h1, h2, h3⟩ := hn u hu
    rw [h1]
    rw [if_neg] at h3
    · rw [h3, hblk u hu]
    · rintro ⟨_, e, he, hne⟩
      exact hne (by rw [hblk u hu, hblk _ (ok.wf u hu e he)])
  have hlock : ∀ u, u < (exCfg 2).g.n → filterMove? (exCfg 2) s1 (fun _ => 0) u = some ((fun _ => false) u) := by
    intro u hu
    unfold filterMove?
    simp only
    rw [if_pos (hblk u hu)]
  have hexec : Exec (exCfg 2) (setOps (locked (exCfg 2) fun _ => false) fun _ => 0) (quiet s1.part s1.bw) (quiet s1.part s1.bw) :=
    ⟨.refl _, fun _ _ => rfl, .refl _⟩
  -- the balancer moves node 1
  obtain ⟨b', hrun, _, hb0, hb1, _⟩ := Balancer.exRun
  have hcore : (Balancer.exStart 2).core = quiet s1.part s1.bw := by
    show _ = quiet s0.part s0.bw
    rw [hpart, hbw]
    rfl
  obtain ⟨cache, hiter⟩ := hi1.iter_ex ok 0 0 hnext hlock hexec (b := Balancer.exStart 2) (b' := b') hcore (Balancer.exStart_ok 2 (by decide)) hrun
  have r2 := Reach.step r1 (.iter s1 _ 0 0 0 rfl hiter)
  have hcut : (exCfg 2).g.cut (blk b'.core.part) = 1 := by
    rw [cut_congr (q := fun u => u)]
    · decide
    · intro u hu
      rcases two hu with rfl | rfl
      · show (b'.core.part 0).getD 0 = 0
        rw [hb0]; rfl
      · show (b'.core.part 1).getD 0 = 1
        rw [hb1]; rfl
  have hbest : s1.bestCut = 0 := by
    show s0.bestCut = 0
    rw [h0.cut.eq ok]
    decide
  rw [hcut] at r2
  generalize hs2 : s1.finish b'.core.part b'.core.bw cache (fun _ => false) 1 (nextCtrl (exCfg 2) s1.bestCut 1 0 0 0) = s2 at r2
  have hc2 : s2.ctrl = .rollback 0 := by
    rw [← hs2]
    show nextCtrl (exCfg 2) s1.bestCut 1 0 0 0 = .rollback 0
    rw [hbest]
    decide
  have hl2 : s2.lastBest = false := by
    rw [← hs2]
    show (if (1 : Int) ≤ s1.bestCut then true else false) = false
    rw [hbest]
    decide
  -- the input is restored
  have hi2 := Inv.of_reach ok exValid h0 r2
  obtain ⟨p, hp⟩ := exec_ex (c := exCfg 2) Nat.one_pos hi2.valid (us := List.range 2) (f := s2.best) fun u hu =>
    ⟨List.mem_range.1 hu, hi2.bestLt u (List.mem_range.1 hu)⟩
  have hvp := exec_sets hi2.valid (List.nodup_range (n := 2)) (fun u _ hu => hi2.bestLt u hu) hp
  obtain ⟨L, gc, hgc⟩ := initCache_ex ok hvp.1 s2.L.off s2.gc
  have r3 := Reach.step r2 (.rollback s2 0 p L gc hc2 hl2 hp hgc)
  have r4 := Reach.step r3 (.leave _ 1 rfl (le_refl _))
  refine ⟨exCfg 2, exPart, _, s0, _, ok, hm, exValid, h0, r4, rfl, ?_, 0, (by decide : 0 < 2), ?_⟩
  · refine ⟨blk b'.core.part, ?_, (C42_balanced _ ok hm _ _ exValid _ _ h0 r4).1 _ ?_⟩ <;>
    · show _ ∈ s2.seen
      rw [← hs2]
      show _ ∈ s1.seen ++ [_]
      exact List.mem_append_right _ (List.mem_singleton.2 rfl)
  · show (3 : Int) < weightOf 2 _ p.part 0
    have : ∀ u, u < 2 → p.part u = exPart u := by
      intro u hu
      rw [hvp.2 u, if_pos (List.mem_range.2 hu)]
      have : s2.best u = s0.best u := by
        rw [← hs2]
        show (if (1 : Int) ≤ s1.bestCut then blk b'.core.part else s1.best) u = s0.best u
        rw [hbest, if_neg (by decide)]
      rw [this, h0.best u hu]
      rcases two hu with rfl | rfl <;> rfl
    rw [weightOf_congr this]
    exact (by decide : (3 : Int) < weightOf 2 (fun _ => 2) exPart 0)

/-! ## A run that improves the cut -/

/-- Node `u` in block `u`. -/
def exSplit : Nat → Option Nat := fun u => if u < 2 then some u else none

theorem exSplit_valid : Valid (exCfg 1) exSplit (fun b => if b < 2 then 1 else 0) := by
  refine ⟨fun u hu => ⟨u, if_pos hu, hu⟩, fun b => ?_⟩
  show (if b < 2 then (1 : Int) else 0) = ∑ u ∈ range 2, if (if u < 2 then some u else none) = some b then 1 else 0
  rw [Finset.sum_range_succ, Finset.sum_range_one]
  by_cases h : b < 2
  · rcases two h with rfl | rfl <;> simp
  · rw [if_neg h]
    have h0 : ¬ (0 = b) := by omega
    have h1 : ¬ (1 = b) := by omega
    simp [h0, h1]

/-- If nothing is overloaded then the balancer does nothing. -/
theorem balancer_idle {c : Cfg} {part : Nat → Option Nat} {bw : Nat → Int} (hv : Valid c part bw) (hb : ∀ b, b < c.k → bw b ≤ c.maxW b) :
    ∃ b, b.core = quiet part bw ∧ Balancer.Start c.balancer b ∧ Balancer.Run c.balancer b b := by
  have ho : ∀ b, b < c.k → c.balancer.overload bw b = 0 := fun b h => by
    have := hb b h
    show max 0 (bw b - c.maxW b) = 0
    omega
  refine ⟨⟨quiet part bw, fun _ => .wait, fun _ => [], fun _ => false, fun _ => 0⟩, rfl,
    ⟨hv.init c.k, fun u hu => ?_, fun _ _ => rfl, fun _ _ => rfl, fun u b hu h => ?_, fun b h1 h2 => ?_, fun _ _ _ => rfl⟩, ?_⟩
  · obtain ⟨b, h, _⟩ := hv.assigned u hu
    exact ⟨b, h⟩
  · obtain ⟨b', h', hlt⟩ := hv.assigned u hu
    have h : part u = some b := h
    rw [h'] at h
    obtain rfl := Option.some.inj h
    show false = decide (0 < c.balancer.overload bw b')
    rw [ho b' hlt]
    rfl
  · have h2 : 0 < c.balancer.overload bw b := h2
    rw [ho b h1] at h2
    exact absurd h2 (by decide)
  · unfold Balancer.Run
    rw [if_pos]
    exact Finset.sum_eq_zero fun b h => ho b (mem_range.1 h)

/-- `C42_cut`, `C42_gain_cache`, `C42_moves`, `C42_balanced`, `C42_iterations`, `C42_progress`: both nodes want to change
their block, the filter rejects the move of node 1, and node 0 is moved to node 1. -/
example : Ok (exCfg 1) ∧ Valid (exCfg 1) exSplit (fun b => if b < 2 then 1 else 0) ∧ 0 < (exCfg 1).T ∧
    (∀ b, b < 2 → weightOf 2 (fun _ => 1) exSplit b ≤ (exCfg 1).maxW b) ∧
    (∀ part bw, Valid (exCfg 1) part bw →
      ∃ b b', b.core = quiet part bw ∧ Balancer.Start (exCfg 1).balancer b ∧ Balancer.Run (exCfg 1).balancer b b') ∧
    ∃ s0 s, Start (exCfg 1) exSplit (fun b => if b < 2 then 1 else 0) s0 ∧ Reach (exCfg 1) s0 s ∧ s.ctrl = .done ∧
      s.part 0 = some 1 ∧ s.part 1 = some 1 ∧ s.seen.length = 1 ∧
      (exCfg 1).g.cut (blk s.part) = 0 ∧ (exCfg 1).g.cut (blk exSplit) = 1 := by
  have ok := exOk 1 (by decide)
  have hlight : ∀ part bw, Valid (exCfg 1) part bw → ∀ b, b < 2 → bw b ≤ 3 := by
    intro part bw hv b _
    rw [hv.weights b]
    show (∑ u ∈ range 2, if part u = some b then (1 : Int) else 0) ≤ 3
    rw [Finset.sum_range_succ, Finset.sum_range_one]
    split <;> split <;> decide
  have hbal := fun part bw (hv : Valid (exCfg 1) part bw) => balancer_idle hv (hlight part bw hv)
  refine ⟨ok, exSplit_valid, Nat.one_pos, fun b hb => ?_, fun part bw hv => ?_, ?_⟩
  · have := exSplit_valid.weights b
    rw [show weightOf 2 (fun _ => 1) exSplit b = _ from this.symm]
    exact hlight _ _ exSplit_valid b hb
  · obtain ⟨b, h⟩ := hbal part bw hv
    exact ⟨b, b, h⟩
  obtain ⟨s0, h0⟩ := start_ex ok exSplit_valid
  let s1 : St := { s0 with ctrl := .iter 0 0 0 }
  have r1 : Reach (exCfg 1) s0 s1 := .step (.refl _) (.enter s0 0 h0.ctrl Nat.one_pos)
  have hi1 : Inv (exCfg 1) (blk exSplit) s1 := Inv.of_reach ok exSplit_valid h0 r1
  have hb : blk s1.part = blk exSplit := by
    show blk s0.part = _
    rw [h0.isPart]
  have hother : ∀ u x, u < 2 → x < 2 → x ≠ u → x = 1 - u := fun u x _ _ _ => by omega
  obtain ⟨next, hn⟩ := hi1.find ok 0
  have hnext : ∀ u, u < 2 → next u = 1 - u := by
    intro u hu
    obtain ⟨_, _, h3⟩ := hn u hu
    rw [hb, show s1.lock u = false from h0.lock u hu, if_pos] at h3
    · obtain ⟨b, h4, h5, _, h7⟩ := h3
      rcases two hu with rfl | rfl
      · obtain rfl : b = 1 := hother 0 b hu h4 h5
        exact h7.trans (by decide)
      · obtain rfl : b = 0 := hother 1 b hu h4 h5
        exact h7.trans (by decide)
    · refine ⟨rfl, (1 - u, 1), ?_⟩
      rcases two hu with rfl | rfl <;> decide
  have hf : ∀ u, u < 2 → findMove? (exCfg 1) 0 s1 u = some ((fun u => 1 - u) u) := fun u hu => by
    rw [(hn u hu).1, hnext u hu]
  obtain ⟨lock, hl⟩ := hi1.filter ok (next := fun u => 1 - u) fun u hu => by
    show 1 - u < 2
    omega
  have hl0 : lock 0 = true := (hl 0 (by decide : 0 < 2)).2.2 (by rw [hb]; decide)
  have hl1 : lock 1 = false := by
    have h := (hl 1 (by decide : 1 < 2)).2
    unfold Filters at h
    rw [hb] at h
    exact Bool.eq_false_iff.2 fun e => absurd (h.1 e) (by decide)
  have hlocked : locked (exCfg 1) lock = [0] := by
    show (List.range 2).filter _ = [0]
    simp [List.range_succ, hl0, hl1]
  obtain ⟨p, hp⟩ := exec_ex (c := exCfg 1) Nat.one_pos hi1.valid (us := locked (exCfg 1) lock) (f := fun u => 1 - u) fun u hu => by
    rw [hlocked, List.mem_singleton] at hu
    subst hu
    exact ⟨(by decide : 0 < 2), (by decide : 1 < 2)⟩
  have hvp := exec_sets hi1.valid (us := locked (exCfg 1) lock) (List.nodup_range.filter _) (fun u _ _ => by
    show 1 - u < 2
    omega) hp
  obtain ⟨b, e1, e2, e3⟩ := hbal _ _ hvp.1
  obtain ⟨cache, hiter⟩ := hi1.iter_ex ok 0 0 hf (fun u hu => (hl u hu).1) hp e1 e2 e3
  have r2 := Reach.step r1 (.iter s1 _ 0 0 0 rfl hiter)
  have hbp : b.core.part = p.part := by rw [e1]; rfl
  have hp0 : b.core.part 0 = some 1 := by
    rw [hbp, hvp.2 0, hlocked]
    rfl
  have hp1 : b.core.part 1 = some 1 := by
    rw [hbp, hvp.2 1, hlocked, if_neg (by decide)]
    show s0.part 1 = _
    rw [h0.isPart]
    rfl
  have hcut : (exCfg 1).g.cut (blk b.core.part) = 0 := by
    rw [cut_congr (q := fun _ => 1)]
    · decide
    · intro u hu
      rcases two hu with rfl | rfl
      · show (b.core.part 0).getD 0 = 1
        rw [hp0]; rfl
      · show (b.core.part 1).getD 0 = 1
        rw [hp1]; rfl
  have hbest : s1.bestCut = 1 := by
    show s0.bestCut = 1
    rw [h0.cut.eq ok]
    decide
  have hseen : s1.seen = [] := h0.seen
  rw [hcut] at r2
  generalize hs2 : s1.finish b.core.part b.core.bw cache lock 0 (nextCtrl (exCfg 1) s1.bestCut 0 0 0 0) = s2 at r2
  have hc2 : s2.ctrl = .rollback 0 := by
    rw [← hs2]
    show nextCtrl (exCfg 1) s1.bestCut 0 0 0 0 = .rollback 0
    rw [hbest]
    decide
  have hl2 : s2.lastBest = true := by
    rw [← hs2]
    show (if (0 : Int) ≤ s1.bestCut then true else false) = true
    rw [hbest]
    decide
  have hpart2 : s2.part = b.core.part := by rw [← hs2]; rfl
  have hlen : s2.seen.length = 1 := by
    rw [← hs2]
    show (s1.seen ++ [_]).length = 1
    rw [hseen]
    rfl
  have r3 := Reach.step r2 (.keep s2 0 hc2 hl2)
  have r4 := Reach.step r3 (.leave _ 1 rfl (le_refl _))
  refine ⟨s0, _, h0, r4, rfl, ?_, ?_, hlen, ?_, by decide⟩
  · show s2.part 0 = _
    rw [hpart2, hp0]
  · show s2.part 1 = _
    rw [hpart2, hp1]
  · show (exCfg 1).g.cut (blk s2.part) = 0
    rw [hpart2, hcut]

end Verif.Jet
