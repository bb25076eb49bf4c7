import Verif.Balancer.Lemmas

/-!
# C41: the greedy balancer
-/

namespace Verif.Balancer
open Verif.Partitioned (weightOf Op PC pend)
open Finset (range mem_range)

theorem overload_step {c : Cfg} (hw : ∀ u, 0 ≤ c.g.w u) {s0 s s' : State} (h : Inv c s0 s) (hs : Step c s s') (b : Nat) :
    c.overload s'.core.bw b ≤ c.overload s.core.bw b := by
  cases hs with
  | core b' u cur hb hph =>
    have := h.ok b' hb
    rw [hph] at this
    rw [coreStep_core]
    exact overload_next hw this.1 b
  | _ => exact le_refl _

/-- **C41, overload.**  At every step of every interleaving, the overload of no block increases, hence the total
overload does not increase. -/
theorem C41_overload_never_increases (c : Cfg) (hg : c.g.WF) (hw : ∀ u, 0 ≤ c.g.w u) (s0 s s' : State) (h0 : Start c s0)
    (hr : Reach c s0 s) (hr' : Reach c s s') :
    (∀ b, max 0 (s'.core.bw b - c.maxW b) ≤ max 0 (s.core.bw b - c.maxW b)) ∧
      c.totalOverload s'.core.bw ≤ c.totalOverload s.core.bw := by
  have key : Inv c s0 s' ∧ ∀ b, c.overload s'.core.bw b ≤ c.overload s.core.bw b := by
    induction hr' with
    | refl => exact ⟨.of_reach hg hw h0 hr, fun b => le_refl _⟩
    | step _ hs ih =>
      exact ⟨ih.1.step hg hw hs, fun b => le_trans (overload_step hw ih.1 hs b) (ih.2 b)⟩
  exact ⟨key.2, Finset.sum_le_sum fun b _ => key.2 b⟩

/-- **C41, no new overload.**  At every moment of every interleaving no block is heavier than its maximum weight, or its
weight at the beginning; so a block that is within its limit stays within it. -/
theorem C41_never_overloaded (c : Cfg) (hg : c.g.WF) (hw : ∀ u, 0 ≤ c.g.w u) (s0 s : State) (h0 : Start c s0)
    (hr : Reach c s0 s) (b : Nat) : s.core.bw b ≤ max (s0.core.bw b) (c.maxW b) := by
  have := (C41_overload_never_increases c hg hw s0 s0 s h0 (.refl _) hr).1 b
  omega

/-- **C41, result.**  When `refine` returns, the block weights are the weights of the blocks, every node is in an existing
block, no block has become heavier than its limit, and the returned value is `true` iff no block is overloaded. -/
theorem C41_result (c : Cfg) (hg : c.g.WF) (hw : ∀ u, 0 ≤ c.g.w u) (s0 s : State) (h0 : Start c s0) (hr : Run c s0 s) :
    (∀ b, s.core.bw b = weightOf c.g.n c.g.w s.core.part b) ∧ (∀ u b, u < c.g.n → s.core.part u = some b → b < c.k) ∧
      (∀ b, weightOf c.g.n c.g.w s.core.part b ≤ max (weightOf c.g.n c.g.w s0.core.part b) (c.maxW b)) ∧
      (result c s0 s = true ↔ ∀ b, b < c.k → weightOf c.g.n c.g.w s.core.part b ≤ c.maxW b) := by
  have hzero : ∀ bw : Nat → Int, c.totalOverload bw = 0 ↔ ∀ b, b < c.k → bw b ≤ c.maxW b := by
    intro bw
    unfold Cfg.totalOverload
    have hnn : ∀ b ∈ range c.k, 0 ≤ c.overload bw b := fun b _ => le_max_left _ _
    rw [Finset.sum_eq_zero_iff_of_nonneg hnn]
    constructor
    · intro h b hb
      have := h b (mem_range.2 hb)
      unfold Cfg.overload at this
      omega
    · intro h b hb
      have := h b (mem_range.1 hb)
      unfold Cfg.overload
      omega
  unfold Run at hr
  by_cases ht : c.totalOverload s0.core.bw = 0
  · rw [if_pos ht] at hr
    subst hr
    refine ⟨h0.core.weights, h0.core.range, fun b => le_max_left _ _, ?_⟩
    unfold result
    rw [if_pos ht]
    have := (hzero _).1 ht
    refine ⟨fun _ b hb => ?_, fun _ => rfl⟩
    rw [← h0.core.weights]
    exact this b hb
  · rw [if_neg ht] at hr
    obtain ⟨hr, hdone⟩ := hr
    have hinv := Inv.of_reach hg hw h0 hr
    have hidle : ∀ b, b < c.k → s.core.pc b = .idle := by
      intro b hb
      have := hinv.ok b hb
      rw [hdone b hb] at this
      exact this
    obtain ⟨h1, _, h3⟩ := Partitioned.C17_block_weights _ _ _ _ _ _ _ h0.core hinv.reach hidle
    refine ⟨h1, h3, fun b => ?_, ?_⟩
    · rw [← h1, ← h0.core.weights]
      exact C41_never_overloaded c hg hw s0 s h0 hr b
    · have hsum : c.totalOverload s0.core.bw - ∑ b ∈ range c.k, s.delta b = c.totalOverload s.core.bw := by
        unfold Cfg.totalOverload
        rw [← Finset.sum_sub_distrib]
        refine Finset.sum_congr rfl fun b hb => ?_
        have := hinv.num b (mem_range.1 hb)
        rw [hdone b (mem_range.1 hb)] at this
        have this : _ + _ = _ := this
        omega
      unfold result
      rw [if_neg ht, hsum, decide_eq_true_iff, hzero]
      constructor
      · intro h b hb; rw [← h1]; exact h b hb
      · intro h b hb; rw [h1]; exact h b hb

/-- **C41, queues.**  At every moment: each queue holds nodes of its own block, each once (so no node is in two queues of
the forest), and a node that is about to be added to a queue is in none. -/
theorem C41_queues (c : Cfg) (hg : c.g.WF) (hw : ∀ u, 0 ≤ c.g.w u) (s0 s : State) (h0 : Start c s0) (hr : Reach c s0 s)
    (b : Nat) (hb : b < c.k) :
    (s.pq b).Nodup ∧ (∀ u ∈ s.pq b, u < c.g.n ∧ s.core.part u = some b) ∧
      (∀ u, (∃ cur, s.ph b = .popped u cur) ∨ (∃ todo cur, s.ph b = .look u todo cur ∧ s.core.part u = some b) →
        ∀ b', b' < c.k → u ∉ s.pq b') := by
  have hinv := Inv.of_reach hg hw h0 hr
  refine ⟨(hinv.pq b hb).1, fun u hu => ⟨((hinv.pq b hb).2 u hu).1, ((hinv.pq b hb).2 u hu).2.1⟩, fun u h b' hb' hu => ?_⟩
  have hu' := ((hinv.pq b' hb').2 u hu).2.1
  have hok := hinv.ok b hb
  rcases h with ⟨cur, h⟩ | ⟨todo, cur, h, hp⟩
  · rw [h] at hok
    obtain rfl := Option.some.inj (hu'.symm.trans hok.2.1.2.1)
    exact hok.2.2 hu
  · rw [h] at hok
    obtain rfl := Option.some.inj (hu'.symm.trans hp)
    exact hok.2.2.2 hu

/-- **C41, success.**  If no limit is negative then, whenever `refine` returns, it returns `true` and no block is
overloaded: a queue always holds enough weight to remove the overload of its block, and as long as there is a node in the
queue the task goes on.  (It need not return: `C41_not_terminating`.) -/
theorem C41_returns_balanced (c : Cfg) (hg : c.g.WF) (hw : ∀ u, 0 ≤ c.g.w u) (hm : ∀ b, b < c.k → 0 ≤ c.maxW b) (s0 s : State)
    (h0 : Start c s0) (hr : Run c s0 s) :
    result c s0 s = true ∧ ∀ b, b < c.k → weightOf c.g.n c.g.w s.core.part b ≤ c.maxW b := by
  obtain ⟨h1, _, _, h4⟩ := C41_result c hg hw s0 s h0 hr
  suffices h : ∀ b, b < c.k → weightOf c.g.n c.g.w s.core.part b ≤ c.maxW b from ⟨h4.2 h, h⟩
  unfold Run at hr
  by_cases ht : c.totalOverload s0.core.bw = 0
  · refine h4.1 ?_
    unfold result
    rw [if_pos ht]
  · rw [if_neg ht] at hr
    intro b hb
    have := Heavy.of_reach hg hw hm h0 hr.1 b hb
    rw [hr.2 b hb] at this
    have this : c.overload s.core.bw b ≤ 0 := this
    rw [← h1]
    unfold Cfg.overload at this
    omega

/-! ## The balancer need not return -/

/-- No block weight is ever negative. -/
theorem bw_nonneg {c : Cfg} (hw : ∀ u, 0 ≤ c.g.w u) {s0 s : State} (h0 : Start c s0) (h : Inv c s0 s) {b : Nat} (hb : b < c.k) :
    0 ≤ s.core.bw b := by
  have hp := h0.core.inv.reach h.reach
  have hpend : ∀ t, t < c.k → t ≠ b → 0 ≤ pend c.g.w b (s.core.pc t) := by
    intro t ht hne
    have hok := h.ok t ht
    cases hph : s.ph t with
    | moving u cur =>
      rw [hph] at hok
      have h1 := hok.1
      cases hpc : s.core.pc t <;> rw [hpc] at h1 <;> simp only [pend] <;> try exact le_refl _
      · have := hw u
        obtain ⟨rfl, _⟩ := h1
        split <;> omega
      · have := hw u
        obtain ⟨rfl, rfl, _⟩ := h1
        rw [if_neg hne]
        split <;> omega
      · exact h1.elim
      · exact h1.elim
    | _ =>
      rw [hph] at hok
      have : s.core.pc t = .idle := by first | exact hok | exact hok.1
      rw [this]
      exact le_refl _
  have hsum : pend c.g.w b (s.core.pc b) ≤ ∑ t ∈ range c.k, pend c.g.w b (s.core.pc t) := by
    rw [← Finset.sum_erase_add _ _ (mem_range.2 hb)]
    have := Finset.sum_nonneg (s := (range c.k).erase b) (f := fun t => pend c.g.w b (s.core.pc t))
      fun t ht => hpend t (mem_range.1 (Finset.mem_of_mem_erase ht)) (Finset.ne_of_mem_erase ht)
    omega
  have hwo : ∀ u, u < c.g.n → s.core.part u = some b → c.g.w u ≤ weightOf c.g.n c.g.w s.core.part b := by
    intro u hu hpu
    have := Finset.single_le_sum (s := range c.g.n) (f := fun v => if s.core.part v = some b then c.g.w v else 0)
      (fun v _ => by split; exact hw v; exact le_refl _) (mem_range.2 hu)
    simp only [hpu, if_true] at this
    exact this
  have hw0 : 0 ≤ weightOf c.g.n c.g.w s.core.part b :=
    Finset.sum_nonneg fun v _ => by split; exact hw v; exact le_refl _
  have hb1 := hp.bal b
  generalize ∑ t ∈ range c.k, pend c.g.w b (s.core.pc t) = S at hsum hb1
  have hok := h.ok b hb
  cases hph : s.ph b with
  | moving u cur =>
    rw [hph] at hok
    obtain ⟨h1, h2, _⟩ := hok
    have h3 := hwo u h2.1 h2.2.1
    have h4 := hw u
    cases hpc : s.core.pc b <;> rw [hpc] at h1 hsum <;> simp only [pend] at hsum <;> try omega
    · split at hsum
      · rw [h1.1] at hsum; omega
      · omega
    · rw [h1.1, if_pos h1.2.1] at hsum
      split at hsum <;> omega
    · exact h1.elim
    · exact h1.elim
  | _ =>
    rw [hph] at hok
    have : s.core.pc b = .idle := by first | exact hok | exact hok.1
    rw [this] at hsum
    simp only [pend] at hsum
    omega

/-- The task of block `b` has a node to handle and none has left the block. -/
def StuckPhase (s : State) (b : Nat) : Phase → Prop
  | .wait | .head _ => s.pq b ≠ []
  | .popped _ _ => True
  | .moving _ _ => ∀ u d mx, s.core.pc b ≠ .moveDec u b d mx ∧ s.core.pc b ≠ .moveStore u b d mx
  | .scan _ _ | .look _ _ _ | .done => False

structure Stuck (c : Cfg) (b : Nat) (s : State) : Prop where
  heavy : ∀ u, u < c.g.n → s.core.part u = some b → ∀ d, d < c.k → c.maxW d < c.g.w u
  closed : ∀ t, t < c.k → ∀ u a mx, s.core.pc t ≠ .moveDec u a b mx ∧ s.core.pc t ≠ .moveStore u a b mx
  over : 0 < c.overload s.core.bw b
  phase : StuckPhase s b (s.ph b)

/-- A step of another task that keeps what the stuck task sees. -/
theorem StuckPhase.mono {s s' : State} {b : Nat} {p : Phase} (h : StuckPhase s b p) (h1 : s'.pq b = s.pq b)
    (h2 : s'.core.pc b = s.core.pc b) : StuckPhase s' b p := by
  cases p with
  | wait => show s'.pq b ≠ []; rw [h1]; exact h
  | head => show s'.pq b ≠ []; rw [h1]; exact h
  | popped => trivial
  | moving => show ∀ u d mx, _; rw [h2]; exact h
  | scan => exact h
  | look => exact h
  | done => exact h

theorem Stuck.step {c : Cfg} (hw : ∀ u, 0 ≤ c.g.w u) {s0 s s' : State} (h0 : Start c s0) (hi : Inv c s0 s) {b : Nat} (hb : b < c.k)
    (h : Stuck c b s) (hs : Step c s s') : Stuck c b s' := by
  -- steps that change neither the partition nor the threads inside `move`
  have simple : ∀ (b' : Nat) (p : Phase) (pq : Nat → List Nat) (m : Nat → Bool), (b' ≠ b → pq b = s.pq b) →
      (b' = b → StuckPhase { s with ph := upd s.ph b' p, pq := pq, marked := m } b p) →
      Stuck c b { s with ph := upd s.ph b' p, pq := pq, marked := m } := by
    intro b' p pq m h1 h2
    refine ⟨h.heavy, h.closed, h.over, ?_⟩
    show StuckPhase _ b (upd s.ph b' p b)
    by_cases e : b' = b
    · have := h2 e
      subst e; rw [upd_same]; exact this
    · rw [upd_ne _ _ (Ne.symm e)]
      exact h.phase.mono (h1 e) rfl
  have hphase := h.phase
  have hnumb := hi.num b hb
  cases hs with
  | begin b' hb' hph =>
    refine simple b' _ s.pq s.marked (fun _ => rfl) fun e => ?_
    subst e
    rw [hph] at hphase
    exact hphase
  | stop b' cur hb' hph hc =>
    refine simple b' _ s.pq s.marked (fun _ => rfl) fun e => ?_
    subst e
    rw [hph] at hphase hnumb
    rcases hc with hc | hc
    · have := h.over
      have := hnumb.1
      omega
    · exact hphase hc
  | pop b' u cur hb' hph hc hu =>
    exact simple b' _ _ s.marked (fun e => upd_ne _ _ (Ne.symm e)) fun e => trivial
  | readd b' u cur pq hb' hph ha =>
    refine simple b' _ _ s.marked (fun e => upd_ne _ _ (Ne.symm e)) fun e => ?_
    subst e
    show upd s.pq b' pq b' ≠ []
    rw [upd_same]
    exact ha.ne_nil
  | try_ b' u dst cur hb' hph hd =>
    refine ⟨h.heavy, fun t ht u' a mx => ?_, h.over, ?_⟩
    · show upd s.core.pc b' _ t ≠ _ ∧ upd s.core.pc b' _ t ≠ _
      by_cases e : t = b'
      · subst e; rw [upd_same]; exact ⟨(nomatch ·), (nomatch ·)⟩
      · rw [upd_ne _ _ e]; exact h.closed t ht u' a mx
    · show StuckPhase _ b (upd s.ph b' _ b)
      by_cases e : b = b'
      · subst e
        rw [upd_same]
        intro u' d mx
        show upd s.core.pc b _ b ≠ _ ∧ upd s.core.pc b _ b ≠ _
        rw [upd_same]
        exact ⟨(nomatch ·), (nomatch ·)⟩
      · rw [upd_ne _ _ e]
        exact hphase.mono rfl (upd_ne _ _ e)
  | next b' cur hb' hph =>
    refine simple b' _ s.pq s.marked (fun _ => rfl) fun e => ?_
    subst e
    rw [hph] at hphase
    exact hphase.elim
  | scan b' v todo cur hb' hph =>
    refine simple b' _ s.pq s.marked (fun _ => rfl) fun e => ?_
    subst e
    rw [hph] at hphase
    exact hphase.elim
  | other b' v todo cur hb' hph hv =>
    refine simple b' _ s.pq s.marked (fun _ => rfl) fun e => ?_
    subst e
    rw [hph] at hphase
    exact hphase.elim
  | add b' v todo cur pq hb' hph hv ha =>
    refine simple b' _ _ _ (fun e => upd_ne _ _ (Ne.symm e)) fun e => ?_
    subst e
    rw [hph] at hphase
    exact hphase.elim
  | core b' u cur hb' hph =>
    have hok := hi.ok b' hb'
    rw [hph] at hok
    obtain ⟨hpc, hhere, hnot⟩ := hok
    have hwu := hw u
    have hover := h.over
    -- the new state of the task, if the node was not moved
    have hdef : (∀ v a d mx, s.core.pc b' ≠ .moveStore v a d mx) → s.coreStep c b' u cur = { s with core := s.core.next c.g.w b', ph := upd s.ph b' (if (s.core.next c.g.w b').pc b' = .idle then .popped u cur else .moving u cur) } := by
      intro hne
      unfold State.coreStep
      split
      · rename_i heq; exact absurd heq (hne _ _ _ _)
      · rfl
    rcases next_cases hpc with ⟨dst, mx, q1, q2, q3, q4⟩ | ⟨dst, hd, q1, q2, q3, q4⟩ |
      ⟨dst, hd, hle, -, q0, q1, q2, q3, q4⟩ | ⟨q0, q1, q2, q3, x, q4, q5⟩
    · have hne : b ≠ b' := by
        rintro rfl
        rw [hph] at hphase
        exact (hphase u dst mx).2 q1
      have hdst : dst ≠ b := by
        rintro rfl
        exact (h.closed b' hb' u b' mx).2 q1
      refine ⟨fun v hv hp => ?_, fun t ht u' a mx' => ?_, ?_, ?_⟩
      · rw [coreStep_core, q2] at hp
        by_cases e : v = u
        · subst e; rw [upd_same] at hp; exact absurd (Option.some.inj hp) hdst
        · rw [upd_ne _ _ e] at hp; exact h.heavy v hv hp
      · rw [coreStep_core, q4]
        by_cases e : t = b'
        · subst e; rw [upd_same]; exact ⟨(nomatch ·), (nomatch ·)⟩
        · rw [upd_ne _ _ e]; exact h.closed t ht u' a mx'
      · rw [coreStep_core, q3]; exact hover
      · have : (s.coreStep c b' u cur).ph b = s.ph b := by
          unfold State.coreStep; rw [q1]; exact upd_ne _ _ hne
        rw [this]
        refine hphase.mono ?_ ?_
        · unfold State.coreStep; rw [q1]
        · rw [coreStep_core, q4, upd_ne _ _ hne]
    · have hne : b ≠ b' := by
        rintro rfl
        rw [hph] at hphase
        exact (hphase u dst _).1 q1
      have hdst : dst ≠ b := by
        rintro rfl
        exact (h.closed b' hb' u b' _).1 q1
      rw [hdef fun _ _ _ _ e => (by rw [q1] at e; cases e)]
      refine ⟨fun v hv hp => h.heavy v hv (by rw [← q2]; exact hp), fun t ht u' a mx' => ?_, ?_, ?_⟩
      · show (s.core.next c.g.w b').pc t ≠ _ ∧ (s.core.next c.g.w b').pc t ≠ _
        rw [q4]
        by_cases e : t = b'
        · subst e
          rw [upd_same]
          refine ⟨(nomatch ·), fun e => ?_⟩
          cases e
          exact hdst rfl
        · rw [upd_ne _ _ e]; exact h.closed t ht u' a mx'
      · show 0 < c.overload (s.core.next c.g.w b').bw b
        rw [q3]
        unfold Cfg.overload at hover ⊢
        rw [upd_ne _ _ hne]; exact hover
      · show StuckPhase _ b (upd s.ph b' _ b)
        rw [upd_ne _ _ hne]
        refine hphase.mono rfl ?_
        show (s.core.next c.g.w b').pc b = _
        rw [q4, upd_ne _ _ hne]
    · have hdst : dst ≠ b := by
        rintro rfl
        unfold Cfg.overload at hover
        omega
      have hne : b ≠ b' := by
        rintro rfl
        have := h.heavy u hhere.1 hhere.2.1 dst hd
        have := bw_nonneg hw h0 hi hd
        omega
      rw [hdef q1]
      refine ⟨fun v hv hp => h.heavy v hv (by rw [← q2]; exact hp), fun t ht u' a mx' => ?_, ?_, ?_⟩
      · show (s.core.next c.g.w b').pc t ≠ _ ∧ (s.core.next c.g.w b').pc t ≠ _
        rw [q4]
        by_cases e : t = b'
        · subst e
          rw [upd_same]
          refine ⟨fun e => ?_, (nomatch ·)⟩
          cases e
          exact hdst rfl
        · rw [upd_ne _ _ e]; exact h.closed t ht u' a mx'
      · show 0 < c.overload (s.core.next c.g.w b').bw b
        rw [q3]
        unfold Cfg.overload at hover ⊢
        rw [upd_ne _ _ (Ne.symm hdst)]; exact hover
      · show StuckPhase _ b (upd s.ph b' _ b)
        rw [upd_ne _ _ hne]
        refine hphase.mono rfl ?_
        show (s.core.next c.g.w b').pc b = _
        rw [q4, upd_ne _ _ hne]
    · have hx : ∀ v a d mx, x ≠ .moveDec v a d mx ∧ x ≠ .moveStore v a d mx := by
        rcases q5 with rfl | ⟨d, e, -, rfl⟩ <;> exact fun _ _ _ _ => ⟨(nomatch ·), (nomatch ·)⟩
      rw [hdef q1]
      refine ⟨fun v hv hp => h.heavy v hv (by rw [← q2]; exact hp), fun t ht u' a mx' => ?_, ?_, ?_⟩
      · show (s.core.next c.g.w b').pc t ≠ _ ∧ (s.core.next c.g.w b').pc t ≠ _
        rw [q4]
        by_cases e : t = b'
        · subst e; rw [upd_same]; exact hx _ _ _ _
        · rw [upd_ne _ _ e]; exact h.closed t ht u' a mx'
      · show 0 < c.overload (s.core.next c.g.w b').bw b
        rw [q3]; exact hover
      · show StuckPhase _ b (upd s.ph b' _ b)
        by_cases e : b = b'
        · subst e
          rw [upd_same]
          split
          · trivial
          · intro u' d mx'
            show (s.core.next c.g.w b).pc b ≠ _ ∧ (s.core.next c.g.w b).pc b ≠ _
            rw [q4, upd_same]
            exact hx _ _ _ _
        · rw [upd_ne _ _ e]
          refine hphase.mono rfl ?_
          show (s.core.next c.g.w b').pc b = _
          rw [q4, upd_ne _ _ e]

/-- **The balancer need not return.**  If an overloaded block consists of nodes that are heavier than the limit of every
block, then in every interleaving its task puts back every node it takes and never ends: `refine` does not return `false`,
it does not return. -/
theorem C41_not_terminating (c : Cfg) (hg : c.g.WF) (hw : ∀ u, 0 ≤ c.g.w u) (s0 : State) (h0 : Start c s0) (b : Nat) (hb : b < c.k)
    (hover : c.maxW b < s0.core.bw b) (hne : ∃ u, u < c.g.n ∧ s0.core.part u = some b)
    (hheavy : ∀ u, u < c.g.n → s0.core.part u = some b → ∀ d, d < c.k → c.maxW d < c.g.w u) :
    (∀ s, Reach c s0 s → s.ph b ≠ .done) ∧ ∀ s, ¬ Run c s0 s := by
  have ho : 0 < c.overload s0.core.bw b := by unfold Cfg.overload; omega
  have hst : Stuck c b s0 := by
    refine ⟨hheavy, fun t ht u a mx => ?_, ho, ?_⟩
    · rw [h0.core.idle t ht]; exact ⟨(nomatch ·), (nomatch ·)⟩
    · rw [h0.wait b hb]
      obtain ⟨l, hl, hf⟩ := h0.full b hb ho
      obtain ⟨u, hu, hp⟩ := hne
      refine hf.ne_nil fun e => ?_
      have : u ∈ l := hl.mem_iff.2 (List.mem_filter.2 ⟨List.mem_range.2 hu, decide_eq_true hp⟩)
      rw [e] at this
      cases this
  have key : ∀ s, Reach c s0 s → Stuck c b s := by
    intro s hr
    induction hr with
    | refl => exact hst
    | step hr hs ih => exact ih.step hw h0 (.of_reach hg hw h0 hr) hb hs
  have hd : ∀ s, Reach c s0 s → s.ph b ≠ .done := by
    intro s hr e
    have := (key s hr).phase
    rw [e] at this
    exact this
  refine ⟨hd, fun s hr => ?_⟩
  unfold Run at hr
  rw [if_neg] at hr
  · exact hd s hr.1 (hr.2 b hb)
  · intro e
    have := (Finset.sum_eq_zero_iff_of_nonneg fun b _ => (le_max_left _ _ : 0 ≤ c.overload s0.core.bw b)).1 e b (mem_range.2 hb)
    have this : c.overload s0.core.bw b = 0 := this
    omega

/-! ## Non-vacuity -/

/-- Two nodes of weight `w`, connected, in block 0 of two blocks with limit 3. -/
def exCfg (w : Int) : Cfg where
  g := { n := 2, w := fun _ => w, adj := fun u => if u = 0 then [(1, 1)] else if u = 1 then [(0, 1)] else [] }
  k := 2
  maxW := fun _ => 3

def exStart (w : Int) : State where
  core := { part := fun u => if u < 2 then some 0 else none, bw := fun b => if b = 0 then w + w else 0, pc := fun _ => .idle, hist := [] }
  ph := fun _ => .wait
  pq := fun b => if b = 0 then [0, 1] else []
  marked := fun u => decide (u < 2)
  delta := fun _ => 0

theorem exWF (w : Int) : (exCfg w).g.WF := by
  intro u hu e he
  have : u = 0 ∨ u = 1 := by have : u < 2 := hu; omega
  rcases this with rfl | rfl
  · have he : e ∈ [(1, 1)] := he
    rw [List.mem_singleton] at he; subst he; exact (by decide : (1 : Nat) < 2)
  · have he : e ∈ [(0, 1)] := he
    rw [List.mem_singleton] at he; subst he; exact (by decide : (0 : Nat) < 2)

theorem exStart_ok (w : Int) (hw : 3 < w + w) : Start (exCfg w) (exStart w) := by
  have h2 : ∀ b, b < 2 → b = 0 ∨ b = 1 := fun b hb => by omega
  refine ⟨⟨fun _ _ => rfl, rfl, ?_, ?_⟩, ?_, fun _ _ => rfl, fun _ _ => rfl, ?_, ?_, ?_⟩
  · intro u b hu h
    rcases h2 u hu with rfl | rfl <;> cases h <;> exact (by decide : (0 : Nat) < 2)
  · intro b
    show (if b = 0 then w + w else 0) = ∑ u ∈ range 2, if (if u < 2 then some 0 else none) = some b then w else 0
    rw [Finset.sum_range_succ, Finset.sum_range_one]
    by_cases e : b = 0
    · subst e; simp
    · rw [if_neg e, if_neg, if_neg, add_zero] <;> simp [Ne.symm e]
  · intro u hu
    exact ⟨0, if_pos hu⟩
  · intro u b hu h
    have h : (if u < 2 then some 0 else none) = some b := h
    rw [if_pos (show u < 2 from hu)] at h
    cases h
    have : (0 : Int) < (exCfg w).overload (exStart w).core.bw 0 := by
      show (0 : Int) < max 0 (w + w - 3)
      omega
    rw [decide_eq_true this]
    exact decide_eq_true hu
  · intro b hb ho
    rcases h2 b hb with rfl | rfl
    · exact ⟨[0, 1], .refl _, .cons 0 (.cons 1 .nil .push) .push⟩
    · exact absurd ho (by show ¬ (0 : Int) < max 0 (0 - 3); decide)
  · intro b hb ho
    rcases h2 b hb with rfl | rfl
    · have ho : max 0 (w + w - 3) = 0 := ho
      omega
    · rfl

/-- A run in which node 1 is moved. -/
theorem exRun : ∃ s, Run (exCfg 2) (exStart 2) s ∧ result (exCfg 2) (exStart 2) s = true ∧ s.core.part 0 = some 0 ∧ s.core.part 1 = some 1 ∧
    s.core.bw 0 = 2 := by
  have hrun : ∀ s, Reach (exCfg 2) (exStart 2) s ∧ (∀ b, b < 2 → s.ph b = .done) → Run (exCfg 2) (exStart 2) s := by
    intro s hs
    unfold Run
    rw [if_neg (by decide)]
    exact hs
  refine ⟨_, hrun _ ⟨.step (.step (.step (.step (.step (.step (.step (.step (.step (.step (.step (.step (.refl _)
    (.begin _ 0 (by decide) rfl)) (.begin _ 1 (by decide) rfl)) (.pop _ 0 1 1 (by decide) (by decide) (by decide) (by decide)))
    (.try_ _ 0 1 1 1 (by decide) rfl (by decide))) (.core _ 0 1 1 (by decide) rfl)) (.core _ 0 1 1 (by decide) rfl))
    (.core _ 0 1 1 (by decide) rfl)) (.core _ 0 1 1 (by decide) rfl)) (.scan _ 0 0 [] 0 (by decide) (by decide)))
    (.next _ 0 0 (by decide) rfl)) (.stop _ 0 0 (by decide) rfl (.inl (by decide))))
    (.stop _ 1 0 (by decide) (by decide) (.inl (by decide))), ?_⟩, ?_, ?_, ?_, ?_⟩
  all_goals decide

/-- `C41_overload_never_increases`, `C41_never_overloaded`, `C41_result`, `C41_queues`, `C41_returns_balanced`. -/
example : (exCfg 2).g.WF ∧ (∀ u, 0 ≤ (exCfg 2).g.w u) ∧ (∀ b, b < (exCfg 2).k → 0 ≤ (exCfg 2).maxW b) ∧ Start (exCfg 2) (exStart 2) ∧
    ∃ s, Run (exCfg 2) (exStart 2) s ∧ result (exCfg 2) (exStart 2) s = true ∧ s.core.part 0 = some 0 ∧ s.core.part 1 = some 1 ∧ s.core.bw 0 = 2 :=
  ⟨exWF 2, fun _ => (by decide : (0 : Int) ≤ 2), fun _ _ => (by decide : (0 : Int) ≤ 3), exStart_ok 2 (by decide), exRun⟩

/-- `C41_not_terminating`: nodes of weight 5. -/
example : (exCfg 5).g.WF ∧ (∀ u, 0 ≤ (exCfg 5).g.w u) ∧ Start (exCfg 5) (exStart 5) ∧ (0 : Nat) < (exCfg 5).k ∧
    (exCfg 5).maxW 0 < (exStart 5).core.bw 0 ∧ (∃ u, u < (exCfg 5).g.n ∧ (exStart 5).core.part u = some 0) ∧
    ∀ u, u < (exCfg 5).g.n → (exStart 5).core.part u = some 0 → ∀ d, d < (exCfg 5).k → (exCfg 5).maxW d < (exCfg 5).g.w u :=
  ⟨exWF 5, fun _ => (by decide : (0 : Int) ≤ 5), exStart_ok 5 (by decide), by decide, by decide, ⟨0, by decide, rfl⟩, fun _ _ _ _ _ => (by decide : (3 : Int) < 5)⟩

end Verif.Balancer
