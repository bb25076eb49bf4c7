import Verif.InitialFM.Round

/-!
# C53: the 2-way FM refinement

`Valid`, `Bipartition`, `blockW`, `over`, `flip` and `Oracle.Ok` are defined in `Spec.lean`, `Graph.cut` in
`Verif/Graph/Basic.lean`.
-/

namespace Verif.InitialFM

/-- **C53**, a round.  For every graph, every bipartition, balanced or not, and all random choices, tie-breaking and stopping
rules: the round ends, no operation is undefined, the result is a bipartition with exact block weights, the returned value
is the change of the cut and not positive, the overload does not increase, and the partition changes only if the cut
becomes strictly smaller. -/
theorem C53_round (c : Cfg) (hg : Valid c.g) (o : Oracle) (ho : o.Ok c.g.n) (p : Nat → Nat) (bw : Nat → Int)
    (h : Bipartition c.g p bw) :
    ∃ p' bw' d, round? c o p bw = some (p', bw', d) ∧ Bipartition c.g p' bw' ∧
      c.g.cut p' = c.g.cut p + d ∧ d ≤ 0 ∧ over c.g c.maxW p' ≤ over c.g c.maxW p ∧
      (d = 0 → ∀ u, u < c.g.n → p' u = p u) := by
  obtain ⟨p', bw', d, h1, h2⟩ := round_ok hg ho h
  exact ⟨p', bw', d, h1, h2.bip, h2.cut, h2.le, h2.over, h2.change⟩

theorem cut_nonneg {g : Graph} (hg : Valid g) (p : Nat → Nat) : 0 ≤ g.cut p := by
  unfold Graph.cut
  apply Finset.sum_nonneg
  intro u hu
  apply Finset.sum_nonneg
  intro v _
  split
  · unfold Graph.wt
    apply List.sum_nonneg
    intro x hx
    obtain ⟨e, he, rfl⟩ := List.mem_map.1 hx
    exact hg.nonneg u (Finset.mem_range.1 hu) e (List.mem_of_mem_filter he)
  · exact le_refl _

/-- **C53**, the whole refinement.  It ends with a bipartition with exact block weights whose cut and overload are not
larger than before.  The result is at least as good as the result of one round.  If it returns true, the cut is strictly
smaller; if more than one iteration is allowed (or zero), it returns true exactly in this case. -/
theorem C53_refine (c : Cfg) (hg : Valid c.g) (o : Nat → Oracle) (ho : ∀ i, (o i).Ok c.g.n) (p : Nat → Nat)
    (bw : Nat → Int) (h : Bipartition c.g p bw) :
    ∃ p' bw' r, refine? c o p bw = some (p', bw', r) ∧ Bipartition c.g p' bw' ∧
      c.g.cut p' ≤ c.g.cut p ∧ over c.g c.maxW p' ≤ over c.g c.maxW p ∧
      (c.g.cut p' = c.g.cut p → ∀ u, u < c.g.n → p' u = p u) ∧
      (∀ q qw d, round? c (o 0) p bw = some (q, qw, d) → c.g.cut p' ≤ c.g.cut q) ∧
      (r = true → c.g.cut p' < c.g.cut p) ∧ (c.iterations ≠ 1 → c.g.cut p' < c.g.cut p → r = true) := by
  unfold refine?
  split
  · rename_i h1
    obtain ⟨p', bw', d, h2, h3⟩ := round_ok hg (ho 0) h
    refine ⟨p', bw', false, by rw [h2]; rfl, h3.bip, ?_, h3.over, fun hc => h3.change ?_, ?_, by simp, fun hn => absurd h1 hn⟩
    · have := h3.cut; have := h3.le; omega
    · have := h3.cut; omega
    · intro q qw d hq; rw [h2] at hq; cases hq; exact le_refl _
  · rw [Metrics.C19_edge_cut_sequential c.g hg.wf hg.symm p]
    simp only [Option.bind_eq_bind, Option.bind_some]
    split
    · rename_i h0
      refine ⟨p, bw, false, rfl, h, le_refl _, le_refl _, fun _ _ _ => rfl, ?_, by simp, fun _ hlt => absurd hlt (lt_irrefl _)⟩
      intro q qw d hq
      rw [h0]
      exact cut_nonneg hg q
    · obtain ⟨p1, bw1, d1, h1, h2⟩ := round_ok hg (ho 0) h
      obtain ⟨p2, bw2, d2, h3, h4⟩ := rounds_ok hg ho (c.iterations - 1) 1 p1 bw1 _ h2.bip h2.cut
      simp only [h1, Option.bind_some, h3]
      have := h2.cut; have := h4.cut; have := h2.le; have := h4.le; have := h2.over; have := h4.over
      refine ⟨p2, bw2, _, rfl, h4.bip, by omega, by omega, fun hc u hu => ?_, ?_, fun hr => ?_, fun _ hlt => ?_⟩
      · rw [h4.change (by omega) u hu, h2.change (by omega) u hu]
      · intro q qw d hq
        cases hq
        omega
      · have := of_decide_eq_true hr; omega
      · exact decide_eq_true (by omega)

/-- The states during a round satisfy the invariant, and there are at most as many iterations as nodes. -/
theorem reach_inv {c : Cfg} (hg : Valid c.g) {p : Nat → Nat} : ∀ (chs : List Choice) (s s' : St), Inv c p s →
    chs.foldlM (step? c) s = some s' → Inv c p s' ∧ chs.length + left c s' ≤ left c s
  | [], s, s', h, he => by cases he; exact ⟨h, by simp⟩
  | ch :: chs, s, s', h, he => by
    rw [List.foldlM_cons] at he
    by_cases hne : isEmpty c (s.queues 0) = true ∧ isEmpty c (s.queues 1) = true
    · exfalso
      have hlt := active_lt c s ch.coin
      have hemp : isEmpty c (s.queues (active c s ch.coin)) = true := by
        rcases (by omega : active c s ch.coin = 0 ∨ active c s ch.coin = 1) with h0 | h0 <;> rw [h0]
        · exact hne.1
        · exact hne.2
      unfold step? at he
      simp [peek_none hemp] at he
    · obtain ⟨s1, u, h1, h2, h3⟩ := step_inv hg h hne ch
      rw [h1] at he
      obtain ⟨h4, h5⟩ := reach_inv hg chs s1 s' h2 he
      have := left_step h3
      exact ⟨h4, by simp only [List.length_cons]; omega⟩

theorem Inv.marked_iff {c : Cfg} {p : Nat → Nat} {s : St} (h : Inv c p s) {u : Nat} (hu : u < c.g.n) :
    s.marked u = false ↔ s.part u = p u := by
  have h1 := h.moved u hu
  have h2 := h.bip.lt u hu
  cases hm : s.marked u with
  | false => rw [hm] at h1; simpa using h1
  | true => rw [hm] at h1; simp only [if_true] at h1; constructor
            · intro h; cases h
            · intro h; omega

/-- **C53**, the queues.  After every number of iterations `chs` of a round, which is at most the number of nodes: the key of a
queued node is by how much the cut grows if the node moves; only nodes that were not moved in this round are queued, in the
queue of their block; a node that is not queued was moved, or all its edges to the other block have weight zero; if all
edge weights are positive, the queued nodes are exactly the nodes that were not moved and have a neighbour in the other
block.  As long as a node is queued, the next iteration is well-defined. -/
theorem C53_queues (c : Cfg) (hg : Valid c.g) (o : Oracle) (ho : o.Ok c.g.n) (p : Nat → Nat) (bw : Nat → Int)
    (h : Bipartition c.g p bw) :
    ∃ s0, start? c o p bw = some s0 ∧ ∀ (chs : List Choice) (s : St), chs.foldlM (step? c) s0 = some s →
      chs.length ≤ c.g.n ∧
      (∀ b u x, s.queues b u = some x → u < c.g.n ∧ s.part u = b ∧ s.part u = p u ∧
        c.g.cut (flip s.part u) = c.g.cut s.part + x) ∧
      (∀ u, u < c.g.n → s.part u = p u → s.queues (s.part u) u = none →
        ∀ e ∈ c.g.adj u, s.part e.1 ≠ s.part u → e.2 = 0) ∧
      ((∀ u, u < c.g.n → ∀ e ∈ c.g.adj u, 0 < e.2) → ∀ u, u < c.g.n →
        ((∃ x, s.queues (s.part u) u = some x) ↔ s.part u = p u ∧ ∃ e ∈ c.g.adj u, s.part e.1 ≠ s.part u)) ∧
      ((∃ b u x, s.queues b u = some x) → ∀ ch, ∃ s', step? c s ch = some s') := by
  obtain ⟨s0, h1, h2, _, _⟩ := start_inv (c := c) hg ho h
  refine ⟨s0, h1, fun chs s hs => ?_⟩
  obtain ⟨hi, hlen⟩ := reach_inv hg chs s0 s h2 hs
  have hout : ∀ u, u < c.g.n → s.part u = p u → s.queues (s.part u) u = none →
      ∀ e ∈ c.g.adj u, s.part e.1 ≠ s.part u → e.2 = 0 := by
    intro u hu hp hq e he hne
    have h3 := hi.good.out u hu ((hi.marked_iff hu).2 hp) hq
    rw [gain_eq] at h3
    have h4 : c.g.conn u (fun v => s.part v ≠ s.part u) = 0 := by omega
    have hnn : ∀ x ∈ (c.g.adj u).map (fun e => if s.part e.1 ≠ s.part u then e.2 else 0), 0 ≤ x := by
      intro x hx
      obtain ⟨e, he, rfl⟩ := List.mem_map.1 hx
      have := hg.nonneg u hu e he
      split <;> omega
    have hle := List.single_le_sum hnn _ (List.mem_map_of_mem (f := fun e => if s.part e.1 ≠ s.part u then e.2 else 0) he)
    have : c.g.conn u (fun v => s.part v ≠ s.part u) =
      ((c.g.adj u).map (fun e => if s.part e.1 ≠ s.part u then e.2 else 0)).sum := rfl
    simp only [if_pos hne] at hle
    have := hg.nonneg u hu e he
    omega
  refine ⟨?_, ?_, hout, ?_, ?_⟩
  · have : left c s0 ≤ c.g.n := by
      have := List.length_filter_le (fun u => decide (s0.marked u = false)) (List.range c.g.n)
      rw [List.length_range] at this
      exact this
    omega
  · intro b u x hx
    obtain ⟨h3, h4, h5, h6⟩ := hi.good.key b u x hx
    exact ⟨h3, h4, (hi.marked_iff h3).1 h5, by rw [h6]; exact cut_flip hg hi.bip.lt h3⟩
  · intro hpos u hu
    constructor
    · rintro ⟨x, hx⟩
      obtain ⟨h3, h4, h5, h6⟩ := hi.good.key _ u x hx
      refine ⟨(hi.marked_iff hu).1 h5, ?_⟩
      have hlt := hi.good.bd hpos _ u x hx
      by_contra hc
      have h0 : c.g.conn u (fun v => s.part v ≠ s.part u) = 0 := by
        unfold Graph.conn
        apply List.sum_eq_zero
        intro y hy
        obtain ⟨e, he, rfl⟩ := List.mem_map.1 hy
        rw [if_neg fun hne => hc ⟨e, he, hne⟩]
      rw [h6, gain_eq, h0] at hlt
      omega
    · rintro ⟨hp, e, he, hne⟩
      cases hq : s.queues (s.part u) u with
      | some x => exact ⟨x, rfl⟩
      | none =>
        have := hout u hu hp hq e he hne
        have := hpos u hu e he
        omega
  · rintro ⟨b, u, x, hx⟩ ch
    obtain ⟨h3, h4, _, _⟩ := hi.good.key b u x hx
    have hlt := hi.bip.lt u h3
    obtain ⟨s', _, h5, _⟩ := step_inv hg hi (fun hc => by
      rcases (by omega : b = 0 ∨ b = 1) with h0 | h0
      · rw [h0, isEmpty_true.1 hc.1 u h3] at hx; cases hx
      · rw [h0, isEmpty_true.1 hc.2 u h3] at hx; cases hx) ch
    exact ⟨s', h5⟩

/-- **C53**, the choice of the next node.  Each iteration moves a queued node `u`, which was not moved before in this round.
No queued node of the same block gives a smaller cut; if no block is overloaded, no queued node of any block does.  If one
block is overloaded, and more than the other one, the node leaves this block if one of its nodes is queued.  If no block is
overloaded and a queued node of the other block gives the same cut, the node leaves the block that is heavier
compared to its perfectly balanced weight. -/
theorem C53_selection (c : Cfg) (hg : Valid c.g) (o : Oracle) (ho : o.Ok c.g.n) (p : Nat → Nat) (bw : Nat → Int)
    (h : Bipartition c.g p bw) :
    ∃ s0, start? c o p bw = some s0 ∧ ∀ (chs : List Choice) (s : St), chs.foldlM (step? c) s0 = some s → ∀ ch s', step? c s ch = some s' →
      ∃ u, u < c.g.n ∧ s.part u = p u ∧ s.queues (s.part u) u ≠ none ∧ s'.part = flip s.part u ∧
        (∀ v, s.queues (s.part u) v ≠ none → c.g.cut (flip s.part u) ≤ c.g.cut (flip s.part v)) ∧
        (over c.g c.maxW s.part = 0 →
          ∀ b v, s.queues b v ≠ none → c.g.cut (flip s.part u) ≤ c.g.cut (flip s.part v)) ∧
        (∀ b, b < 2 → 0 < blockW c.g s.part b - c.maxW b →
          blockW c.g s.part (1 - b) - c.maxW (1 - b) < blockW c.g s.part b - c.maxW b →
          (∃ v, s.queues b v ≠ none) → s.part u = b) ∧
        (over c.g c.maxW s.part = 0 → ∀ v, s.queues (1 - s.part u) v ≠ none →
          c.g.cut (flip s.part v) = c.g.cut (flip s.part u) →
          blockW c.g s.part (1 - s.part u) - c.perfect (1 - s.part u) ≤
            blockW c.g s.part (s.part u) - c.perfect (s.part u)) := by
  obtain ⟨s0, h1, h2, _, _⟩ := start_inv (c := c) hg ho h
  refine ⟨s0, h1, fun chs s hs ch s' hs' => ?_⟩
  obtain ⟨hi, _⟩ := reach_inv hg chs s0 s h2 hs
  have hne : ¬ (isEmpty c (s.queues 0) = true ∧ isEmpty c (s.queues 1) = true) := by
    intro hne
    have hlt := active_lt c s ch.coin
    have hemp : isEmpty c (s.queues (active c s ch.coin)) = true := by
      rcases (by omega : active c s ch.coin = 0 ∨ active c s ch.coin = 1) with h0 | h0 <;> rw [h0]
      · exact hne.1
      · exact hne.2
    unfold step? at hs'
    simp [peek_none hemp] at hs'
  obtain ⟨s'', u, h3, _, h4⟩ := step_inv hg hi hne ch
  rw [h3] at hs'
  cases hs'
  have hcut : ∀ b v, s.queues b v ≠ none → v < c.g.n ∧ s.part v = b ∧ s.queues b v = some (gain c.g s.part v) ∧
      c.g.cut (flip s.part v) = c.g.cut s.part + gain c.g s.part v := by
    intro b v hv
    obtain ⟨x, hx⟩ := Option.ne_none_iff_exists'.1 hv
    obtain ⟨h5, h6, _, h7⟩ := hi.good.key b v x hx
    exact ⟨h5, h6, by rw [hx, h7], cut_flip hg hi.bip.lt h5⟩
  have hult := hi.bip.lt u h4.lt
  have hempt : ∀ b v, s.queues b v ≠ none → isEmpty c (s.queues b) = false := by
    intro b v hv
    obtain ⟨h5, _, h6, _⟩ := hcut b v hv
    exact isEmpty_false.2 ⟨v, h5, _, h6⟩
  have hblk := h4.block
  -- without overload, the queue is selected by its smallest key
  have hgain : over c.g c.maxW s.part = 0 → ∀ b v, b ≠ s.part u → s.queues b v ≠ none →
      selectGain c s ch.coin = s.part u ∧ gain c.g s.part u = loss c (s.queues (s.part u)) ∧
      loss c (s.queues b) ≤ gain c.g s.part v := by
    intro hov b v hbu hv
    obtain ⟨h5, h6, h7, h8⟩ := hcut b v hv
    have hvlt := hi.bip.lt v h5
    have e0 := hempt _ v hv
    have e1 : isEmpty c (s.queues (s.part u)) = false := hempt _ u (by rw [h4.key]; simp)
    have hall : ∀ b, b < 2 → isEmpty c (s.queues b) = false := by
      intro b' hb'
      rcases (by omega : b' = b ∨ b' = s.part u) with h0 | h0 <;> rw [h0]
      · exact e0
      · exact e1
    have hsel : select c s ch.coin = s.part u := by
      rw [hblk]; unfold active; simp only
      rw [hall _ (select_lt c s ch.coin)]; simp
    have hover : max 0 (s.bw 0 - c.maxW 0) = 0 ∧ max 0 (s.bw 1 - c.maxW 1) = 0 := by
      unfold over at hov
      rw [← hi.bip.bw0, ← hi.bip.bw1] at hov
      omega
    unfold select at hsel
    simp only [hover, and_self, if_true] at hsel
    have hloss : ∀ b', b' < 2 → ∃ w, w < c.g.n ∧ s.queues b' w = some (loss c (s.queues b')) ∧
        ∀ v, v < c.g.n → ∀ y, s.queues b' v = some y → loss c (s.queues b') ≤ y := by
      intro b' hb'
      obtain ⟨w, x, p1, p2, p3, p4⟩ := peek_some (hall b' hb') 0
      have : loss c (s.queues b') = x := by unfold loss; rw [p1]
      rw [this]
      exact ⟨w, p2, p3, p4⟩
    obtain ⟨w, hw, hw1, hw2⟩ := hloss (s.part u) hult
    obtain ⟨_, _, _, hv2⟩ := hloss b (by omega)
    refine ⟨hsel, le_antisymm (h4.min w hw _ hw1) (hw2 u h4.lt _ h4.key), hv2 v h5 _ h7⟩
  refine ⟨u, h4.lt, (hi.marked_iff h4.lt).1 h4.unmarked, by rw [h4.key]; simp, h4.part, fun v hv => ?_, fun hov b v hv => ?_,
    fun b hb hpos hgt hex => ?_, fun hov v hv hcv => ?_⟩
  · obtain ⟨h5, _, h6, h7⟩ := hcut _ v hv
    rw [h7, cut_flip hg hi.bip.lt h4.lt]
    have := h4.min v h5 _ h6
    omega
  · obtain ⟨h5, h6, h7, h8⟩ := hcut b v hv
    rw [h8, cut_flip hg hi.bip.lt h4.lt]
    suffices hle : gain c.g s.part u ≤ gain c.g s.part v by omega
    by_cases hbu : b = s.part u
    · rw [hbu] at h7; exact h4.min v h5 _ h7
    · obtain ⟨hsel, hu1, hv1⟩ := hgain hov b v hbu hv
      have hvlt := hi.bip.lt v h5
      have hll : loss c (s.queues (s.part u)) ≤ loss c (s.queues b) := by
        unfold selectGain at hsel
        rcases (by omega : s.part u = 0 ∧ b = 1 ∨ s.part u = 1 ∧ b = 0) with ⟨hu0, hb0⟩ | ⟨hu0, hb0⟩
        · rw [hu0, hb0]
          rw [hu0] at hsel
          split at hsel
          · omega
          · split at hsel <;> omega
        · rw [hu0, hb0]
          rw [hu0] at hsel
          split at hsel
          · omega
          · split at hsel <;> omega
      omega
  · obtain ⟨v, hv⟩ := hex
    have e0 := hempt b v hv
    have hbw : ∀ b, b < 2 → s.bw b = blockW c.g s.part b := by
      intro b' hb'
      rcases (by omega : b' = 0 ∨ b' = 1) with h0 | h0 <;> rw [h0]
      · exact hi.bip.bw0
      · exact hi.bip.bw1
    rw [← hbw b hb, ← hbw (1 - b) (by omega)] at hgt
    rw [← hbw b hb] at hpos
    have hsel : select c s ch.coin = b := by
      unfold select
      simp only
      rcases (by omega : b = 0 ∨ b = 1) with h0 | h0
      · subst h0
        rw [if_neg (by omega), if_neg]
        simp only [Nat.sub_zero] at hgt
        omega
      · subst h0
        simp only [Nat.sub_self] at hgt
        rw [if_neg (by omega), if_pos]
        omega
    rw [hblk]; unfold active; simp only
    rw [hsel, e0]; simp
  · obtain ⟨h5, h6, h7, h8⟩ := hcut _ v hv
    rw [h8, cut_flip hg hi.bip.lt h4.lt] at hcv
    obtain ⟨hsel, hu1, hv1⟩ := hgain hov (1 - s.part u) v (by omega) hv
    unfold selectGain selectWeight at hsel
    simp only at hsel
    rw [hi.bip.bw0, hi.bip.bw1] at hsel
    rcases (by omega : s.part u = 0 ∨ s.part u = 1) with hu0 | hu0
    · rw [hu0] at hsel hu1 hv1 ⊢
      simp only [Nat.sub_zero] at hsel hv1 ⊢
      split at hsel
      · split at hsel <;> omega
      · split at hsel <;> omega
    · rw [hu0] at hsel hu1 hv1 ⊢
      simp only [Nat.sub_self] at hsel hv1 ⊢
      split at hsel
      · split at hsel <;> omega
      · split at hsel <;> omega

/-! ## Examples -/

/-- Two triangles joined by an edge; every edge has weight 2. -/
def exG : Graph where
  n := 6
  w := fun u => u + 1
  adj := fun u => match u with
    | 0 => [(1, 2), (2, 2)] | 1 => [(0, 2), (2, 2)] | 2 => [(0, 2), (1, 2), (3, 2)]
    | 3 => [(2, 2), (4, 2), (5, 2)] | 4 => [(3, 2), (5, 2)] | 5 => [(3, 2), (4, 2)] | _ => []

theorem exG_valid : Valid exG := by
  constructor
  · unfold Graph.WF; decide
  · intro u v c hu hv
    have hu : u < 6 := hu
    have hv : v < 6 := hv
    have h1 : u = 0 ∨ u = 1 ∨ u = 2 ∨ u = 3 ∨ u = 4 ∨ u = 5 := by omega
    have h2 : v = 0 ∨ v = 1 ∨ v = 2 ∨ v = 3 ∨ v = 4 ∨ v = 5 := by omega
    rcases h1 with rfl | rfl | rfl | rfl | rfl | rfl <;> rcases h2 with rfl | rfl | rfl | rfl | rfl | rfl <;>
      simp [exG, List.count_cons, List.count_nil]
  · decide
  · decide

def exCfg : Cfg := { g := exG, maxW := fun _ => 15, perfect := fun _ => 11, iterations := 3, maxKey := 1000 }
def exOracle : Oracle := { chunks := [0], perm := fun _ => List.range 64, choice := fun _ => ⟨false, true, 0⟩, abort := false }
/-- Nodes 2 and 4 are on the wrong side. -/
def exPart : Nat → Nat := fun u => if u = 0 ∨ u = 1 ∨ u = 4 then 0 else 1
def exBw : Nat → Int := fun b => if b = 0 then 8 else 13

theorem exOracle_ok : exOracle.Ok exG.n := ⟨by decide, fun _ => List.Perm.refl _⟩
theorem exBip : Bipartition exG exPart exBw := ⟨by decide, by decide, by decide⟩

/-- One round moves two nodes and reduces the cut from 8 to 2. -/
example : Valid exCfg.g ∧ exOracle.Ok exCfg.g.n ∧ Bipartition exCfg.g exPart exBw ∧ exCfg.g.cut exPart = 8 ∧
    ((round? exCfg exOracle exPart exBw).map fun r => ((List.range 6).map r.1, r.2.1 0, r.2.1 1, r.2.2)) =
      some ([0, 0, 0, 1, 1, 1], 6, 15, -6) :=
  ⟨exG_valid, exOracle_ok, exBip, by decide +kernel, by decide +kernel⟩

example : (∀ i : Nat, ((fun _ => exOracle : Nat → Oracle) i).Ok exCfg.g.n) ∧
    ((refine? exCfg (fun _ => exOracle) exPart exBw).map fun r => ((List.range 6).map r.1, r.2.2)) =
      some ([0, 0, 0, 1, 1, 1], true) :=
  ⟨fun _ => exOracle_ok, by decide +kernel⟩

/-- A state in which nodes are queued in both blocks and the next node is determined. -/
example : (((start? exCfg exOracle exPart exBw).bind fun s => [⟨false, true, 0⟩].foldlM (step? exCfg) s).map fun s =>
    ((List.range 6).map s.part, (List.range 6).map (s.queues 0), (List.range 6).map (s.queues 1), s.cur)) =
    some ([0, 0, 1, 1, 1, 1], [some 0, some 0, none, none, none, none],
      [none, none, some (-2), none, none, none], -4) := by
  decide +kernel

/-- The comment at the acceptance policy (IF 137-138) says that the first balanced cut is accepted if the initial cut is not
balanced.  It is not: here block 0 is too heavy, and the first move of the round gives a balanced partition, but it is
rolled back because its cut is larger. -/
theorem C53_not_rebalanced : ∃ (c : Cfg) (o : Oracle) (p : Nat → Nat) (bw : Nat → Int),
    Valid c.g ∧ o.Ok c.g.n ∧ Bipartition c.g p bw ∧ over c.g c.maxW p = 1 ∧
    ((start? c o p bw).bind fun s => [o.choice 0].foldlM (step? c) s).map (fun s => (s.bw 0, s.bw 1, s.curOver)) =
      some (2, 3, 0) ∧
    (round? c o p bw).map (fun r => ((List.range c.g.n).map r.1, r.2.2)) = some ((List.range c.g.n).map p, 0) := by
  refine ⟨{ g := { n := 3, w := fun u => if u = 1 then 1 else 2
                   adj := fun u => match u with | 0 => [(1, 5)] | 1 => [(0, 5), (2, 1)] | 2 => [(1, 1)] | _ => [] }
            maxW := fun b => if b = 0 then 2 else 3, perfect := fun _ => 3, iterations := 5, maxKey := 1000 },
    exOracle, fun u => if u = 2 then 1 else 0, fun b => if b = 0 then 3 else 2, ?_, ?_, ?_, by decide, by decide +kernel,
    by decide +kernel⟩
  · constructor
    · unfold Graph.WF; decide
    · intro u v c hu hv
      have hu : u < 3 := hu
      have hv : v < 3 := hv
      have h1 : u = 0 ∨ u = 1 ∨ u = 2 := by omega
      have h2 : v = 0 ∨ v = 1 ∨ v = 2 := by omega
      rcases h1 with rfl | rfl | rfl <;> rcases h2 with rfl | rfl | rfl <;> simp [List.count_cons, List.count_nil]
    · decide
    · decide
  · exact ⟨by decide, fun _ => List.Perm.refl _⟩
  · exact ⟨by decide, by decide, by decide⟩

/-- With one iteration, the refinement returns false even if it improved the cut. -/
theorem C53_not_reported_for_one_iteration :
    ((refine? { exCfg with iterations := 1 } (fun _ => exOracle) exPart exBw).map fun r => ((List.range 6).map r.1, r.2.2)) =
      some ([0, 0, 0, 1, 1, 1], false) ∧ exG.cut exPart = 8 ∧ exG.cut (fun u => if u < 3 then 0 else 1) = 2 := by
  refine ⟨by decide +kernel, by decide +kernel, by decide +kernel⟩

end Verif.InitialFM
