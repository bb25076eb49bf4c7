import Verif.Balancer.Model

/-!
# Invariants of the greedy balancer
-/

namespace Verif.Balancer
open Verif.Partitioned (weightOf Op PC)

/-- The position of the task of block `b` inside `move`. -/
def PcOk (c : Cfg) (b u : Nat) : PC → Prop
  | .moveLoad v src dst mx | .moveCas v src dst mx _ | .moveDec v src dst mx | .moveStore v src dst mx =>
    v = u ∧ src = b ∧ dst < c.k ∧ mx = c.maxW dst
  | _ => False

/-- The node is in block `b` and marked. -/
def Here (c : Cfg) (s : State) (b u : Nat) : Prop := u < c.g.n ∧ s.core.part u = some b ∧ s.marked u = true

/-- What is known about a task. -/
def PhaseOk (c : Cfg) (s : State) (b : Nat) : Phase → Prop
  | .wait | .head _ | .done => s.core.pc b = .idle
  | .popped u _ => s.core.pc b = .idle ∧ Here c s b u ∧ u ∉ s.pq b
  | .moving u _ => PcOk c b u (s.core.pc b) ∧ Here c s b u ∧ u ∉ s.pq b
  | .scan todo _ => s.core.pc b = .idle ∧ ∀ v ∈ todo, v < c.g.n
  | .look v todo _ => s.core.pc b = .idle ∧ (∀ v ∈ todo, v < c.g.n) ∧ v < c.g.n ∧ v ∉ s.pq b

/-- What a task that has just executed the decrement of the weight of its block has removed from the overload. -/
def gone (w : Nat → Int) (cur : Int) : PC → Int
  | .moveStore u _ _ _ => min cur (w u)
  | _ => 0

/-- `current_overload` and the accumulated `delta`; `ov` is the overload of the block, `ov0` the overload at the
beginning. -/
def PhaseNum (w : Nat → Int) (ov ov0 delta : Int) (pc : PC) : Phase → Prop
  | .wait => ov = ov0 ∧ delta = 0
  | .head cur | .scan _ cur | .look _ _ cur => cur = ov ∧ ov + delta = ov0
  | .popped _ cur => cur = ov ∧ ov + delta = ov0 ∧ 0 < cur
  | .moving _ cur => cur = ov + gone w cur pc ∧ cur + delta = ov0 ∧ 0 < cur
  | .done => ov + delta = ov0

/-- The queue of a task is heavy enough to remove the overload; a node that was taken from the queue counts. -/
def PhaseHeavy (w : Nat → Int) (ov pqw : Int) : Phase → Prop
  | .wait => ov ≤ pqw
  | .head cur | .scan _ cur | .look _ _ cur => cur ≤ pqw
  | .popped u cur | .moving u cur => cur ≤ pqw + w u
  | .done => ov ≤ 0

structure Inv (c : Cfg) (s0 s : State) : Prop where
  reach : Partitioned.Reach c.g.n c.k c.k c.g.w (fun o => match o with
    | .move _ _ dst mx => mx = c.maxW dst
    | .setBlock _ _ => False) s0.core s.core
  ok : ∀ b, b < c.k → PhaseOk c s b (s.ph b)
  pq : ∀ b, b < c.k → (s.pq b).Nodup ∧ ∀ u ∈ s.pq b, Here c s b u
  num : ∀ b, b < c.k → PhaseNum c.g.w (c.overload s.core.bw b) (c.overload s0.core.bw b) (s.delta b) (s.core.pc b) (s.ph b)

theorem Add.sub {w : Nat → Int} {ov : Int} {pq pq' : List Nat} {u : Nat} (h : Add w ov pq u pq') : ∀ v ∈ pq', v = u ∨ v ∈ pq := by
  cases h with
  | skip => exact fun v hv => Or.inr hv
  | push => exact fun v hv => List.mem_cons.1 hv
  | swap x hx => exact fun v hv => (List.mem_cons.1 hv).imp_right List.mem_of_mem_erase

theorem Add.nodup {w : Nat → Int} {ov : Int} {pq pq' : List Nat} {u : Nat} (h : Add w ov pq u pq') (hn : pq.Nodup) (hu : u ∉ pq) : pq'.Nodup := by
  cases h with
  | skip => exact hn
  | push => exact List.nodup_cons.2 ⟨hu, hn⟩
  | swap x hx => exact List.nodup_cons.2 ⟨fun h => hu (List.mem_of_mem_erase h), hn.erase _⟩

theorem Add.ne_nil {w : Nat → Int} {ov : Int} {pq pq' : List Nat} {u : Nat} (h : Add w ov pq u pq') : pq' ≠ [] := by
  cases h with
  | skip h => exact h
  | push => exact List.cons_ne_nil _ _
  | swap => exact List.cons_ne_nil _ _

theorem Fill.sub {w : Nat → Int} {ov : Int} {l pq : List Nat} (h : Fill w ov l pq) : ∀ v ∈ pq, v ∈ l := by
  induction h with
  | nil => exact fun v hv => hv
  | cons u _ ha ih =>
    intro v hv
    rcases ha.sub v hv with rfl | h
    · exact List.mem_cons_self
    · exact List.mem_cons_of_mem _ (ih v h)

theorem Fill.nodup {w : Nat → Int} {ov : Int} {l pq : List Nat} (h : Fill w ov l pq) (hn : l.Nodup) : pq.Nodup := by
  induction h with
  | nil => exact hn
  | cons u hf ha ih =>
    rw [List.nodup_cons] at hn
    exact ha.nodup (ih hn.2) fun h => hn.1 (hf.sub u h)

theorem Fill.ne_nil {w : Nat → Int} {ov : Int} {l pq : List Nat} (h : Fill w ov l pq) (hl : l ≠ []) : pq ≠ [] := by
  cases h with
  | nil => exact absurd rfl hl
  | cons u _ ha => exact ha.ne_nil

theorem pqWeight_erase (w : Nat → Int) {pq : List Nat} {x : Nat} (h : x ∈ pq) : pqWeight w (pq.erase x) = pqWeight w pq - w x := by
  have := ((List.perm_cons_erase h).map w).sum_eq
  rw [List.map_cons, List.sum_cons] at this
  unfold pqWeight
  omega

theorem pqWeight_cons (w : Nat → Int) (u : Nat) (pq : List Nat) : pqWeight w (u :: pq) = w u + pqWeight w pq := by
  unfold pqWeight
  rw [List.map_cons, List.sum_cons]

/-- After adding, the queue is as heavy as the overload or nothing is missing. -/
theorem Add.weight {w : Nat → Int} {ov : Int} {pq pq' : List Nat} {u : Nat} (h : Add w ov pq u pq') :
    ov ≤ pqWeight w pq' ∨ pqWeight w pq' = w u + pqWeight w pq := by
  cases h with
  | skip _ h => exact Or.inl h
  | push => exact Or.inr (pqWeight_cons ..)
  | swap x hx h =>
    left
    rw [pqWeight_cons] at h ⊢
    rw [pqWeight_erase w hx]
    omega

theorem Fill.weight {w : Nat → Int} (hw : ∀ u, 0 ≤ w u) {ov : Int} {l pq : List Nat} (h : Fill w ov l pq) :
    ov ≤ pqWeight w pq ∨ pqWeight w pq = pqWeight w l := by
  induction h with
  | nil => exact Or.inr rfl
  | cons u _ ha ih =>
    rw [pqWeight_cons]
    have := hw u
    rcases ha.weight with h | h
    · exact Or.inl h
    · rcases ih with h' | h'
      · left; omega
      · right; omega

theorem Start.inv {c : Cfg} {s : State} (h : Start c s) : Inv c s s := by
  refine ⟨.refl _, fun b hb => ?_, fun b hb => ?_, fun b hb => ?_⟩
  · rw [h.wait b hb]; exact h.core.idle b hb
  · by_cases ho : 0 < c.overload s.core.bw b
    · obtain ⟨l, hl, hf⟩ := h.full b hb ho
      have hnd : l.Nodup := hl.nodup_iff.2 (List.nodup_range.filter _)
      refine ⟨hf.nodup hnd, fun u hu => ?_⟩
      have := (List.mem_filter.1 (hl.mem_iff.1 (hf.sub u hu)))
      have hun := List.mem_range.1 this.1
      have hp : s.core.part u = some b := by simpa using this.2
      refine ⟨hun, hp, ?_⟩
      rw [h.marked u b hun hp]
      exact decide_eq_true ho
    · have : c.overload s.core.bw b = 0 := by unfold Cfg.overload at *; omega
      rw [h.empty b hb this]
      exact ⟨List.nodup_nil, fun u hu => (nomatch hu)⟩
  · rw [h.wait b hb]; exact ⟨rfl, h.delta b hb⟩

/-- A step of another task that neither touches the partition nor the marks of the nodes of this one. -/
theorem PhaseOk.mono {c : Cfg} {s s' : State} {b : Nat} {p : Phase} (h : PhaseOk c s b p)
    (hpc : s'.core.pc b = s.core.pc b) (hpq : s'.pq b = s.pq b)
    (hh : ∀ u, Here c s b u → Here c s' b u) : PhaseOk c s' b p := by
  cases p with
  | wait => exact hpc.trans h
  | head => exact hpc.trans h
  | done => exact hpc.trans h
  | popped u cur => exact ⟨hpc.trans h.1, hh u h.2.1, by rw [hpq]; exact h.2.2⟩
  | moving u cur => exact ⟨by rw [hpc]; exact h.1, hh u h.2.1, by rw [hpq]; exact h.2.2⟩
  | scan todo cur => exact ⟨hpc.trans h.1, h.2⟩
  | look v todo cur => exact ⟨hpc.trans h.1, h.2.1, h.2.2.1, by rw [hpq]; exact h.2.2.2⟩

/-- A step that changes only the phase and the queue of task `b`, and sets marks. -/
theorem Inv.local {c : Cfg} {s0 s : State} (h : Inv c s0 s) {b : Nat} (hb : b < c.k) (p : Phase) (pq : List Nat)
    (m : Nat → Bool) (hm : ∀ u, s.marked u = true → m u = true)
    (hpq : pq.Nodup) (hin : ∀ u ∈ pq, u < c.g.n ∧ s.core.part u = some b ∧ m u = true)
    (hok : PhaseOk c { s with ph := upd s.ph b p, pq := upd s.pq b pq, marked := m } b p)
    (hnum : PhaseNum c.g.w (c.overload s.core.bw b) (c.overload s0.core.bw b) (s.delta b) (s.core.pc b) p) :
    Inv c s0 { s with ph := upd s.ph b p, pq := upd s.pq b pq, marked := m } := by
  have hh : ∀ b' u, Here c s b' u → Here c { s with ph := upd s.ph b p, pq := upd s.pq b pq, marked := m } b' u :=
    fun b' u hu => ⟨hu.1, hu.2.1, hm u hu.2.2⟩
  refine ⟨h.reach, fun b' hb' => ?_, fun b' hb' => ?_, fun b' hb' => ?_⟩
  · show PhaseOk c _ b' (upd s.ph b p b')
    by_cases e : b' = b
    · subst e; rw [upd_same]; exact hok
    · rw [upd_ne _ _ e]; exact (h.ok b' hb').mono rfl (upd_ne _ _ e) (hh b')
  · show (upd s.pq b pq b').Nodup ∧ ∀ u ∈ upd s.pq b pq b', _
    by_cases e : b' = b
    · subst e; rw [upd_same]; exact ⟨hpq, hin⟩
    · rw [upd_ne _ _ e]
      exact ⟨(h.pq b' hb').1, fun u hu => hh b' u ((h.pq b' hb').2 u hu)⟩
  · show PhaseNum _ _ _ _ _ (upd s.ph b p b')
    by_cases e : b' = b
    · subst e; rw [upd_same]; exact hnum
    · rw [upd_ne _ _ e]; exact h.num b' hb'

theorem Inv.phase {c : Cfg} {s0 s : State} (h : Inv c s0 s) {b : Nat} (hb : b < c.k) (p : Phase)
    (hok : PhaseOk c s b p)
    (hnum : PhaseNum c.g.w (c.overload s.core.bw b) (c.overload s0.core.bw b) (s.delta b) (s.core.pc b) p) :
    Inv c s0 { s with ph := upd s.ph b p } := by
  have := h.local hb p (s.pq b) s.marked (fun _ h => h) (h.pq b hb).1 (h.pq b hb).2
    (hok.mono rfl (upd_same ..) fun u hu => hu) hnum
  have e : upd s.pq b (s.pq b) = s.pq := by
    funext x
    by_cases hx : x = b
    · subst hx; rw [upd_same]
    · rw [upd_ne _ _ hx]
  rw [e] at this
  exact this

/-- What an atomic step of `move` does. -/
theorem next_cases {c : Cfg} {s : Partitioned.State} {b u : Nat} (h : PcOk c b u (s.pc b)) :
    (∃ dst mx, s.pc b = .moveStore u b dst mx ∧ (s.next c.g.w b).part = upd s.part u (some dst) ∧
      (s.next c.g.w b).bw = s.bw ∧ (s.next c.g.w b).pc = upd s.pc b .idle) ∨
    (∃ dst, dst < c.k ∧ s.pc b = .moveDec u b dst (c.maxW dst) ∧ (s.next c.g.w b).part = s.part ∧
      (s.next c.g.w b).bw = upd s.bw b (s.bw b - c.g.w u) ∧
      (s.next c.g.w b).pc = upd s.pc b (.moveStore u b dst (c.maxW dst))) ∨
    (∃ dst, dst < c.k ∧ s.bw dst + c.g.w u ≤ c.maxW dst ∧ gone c.g.w 0 (s.pc b) = 0 ∧ (∀ cur, gone c.g.w cur (s.pc b) = 0) ∧
      (∀ v a d mx, s.pc b ≠ .moveStore v a d mx) ∧ (s.next c.g.w b).part = s.part ∧
      (s.next c.g.w b).bw = upd s.bw dst (s.bw dst + c.g.w u) ∧
      (s.next c.g.w b).pc = upd s.pc b (.moveDec u b dst (c.maxW dst))) ∨
    ((∀ cur, gone c.g.w cur (s.pc b) = 0) ∧ (∀ v a d mx, s.pc b ≠ .moveStore v a d mx) ∧ (s.next c.g.w b).part = s.part ∧
      (s.next c.g.w b).bw = s.bw ∧ ∃ x, (s.next c.g.w b).pc = upd s.pc b x ∧ (x = .idle ∨ ∃ d e, d < c.k ∧ x = .moveCas u b d (c.maxW d) e)) := by
  unfold Partitioned.State.next
  split <;> rename_i hpc <;> rw [hpc] at h
  · exact h.elim
  · obtain ⟨rfl, rfl, hd, rfl⟩ := h
    exact Or.inr (Or.inr (Or.inr ⟨fun _ => (by rw [hpc]; rfl), fun _ _ _ _ e => (by rw [hpc] at e; cases e), rfl, rfl, _, rfl,
      Or.inr ⟨_, _, hd, rfl⟩⟩))
  · obtain ⟨rfl, rfl, hd, rfl⟩ := h
    split
    · rename_i hle
      split
      · rename_i he
        subst he
        exact Or.inr (Or.inr (Or.inl ⟨_, hd, hle, (by rw [hpc]; rfl), fun _ => (by rw [hpc]; rfl),
          fun _ _ _ _ e => (by rw [hpc] at e; cases e), rfl, rfl, rfl⟩))
      · exact Or.inr (Or.inr (Or.inr ⟨fun _ => (by rw [hpc]; rfl), fun _ _ _ _ e => (by rw [hpc] at e; cases e), rfl, rfl, _, rfl,
          Or.inr ⟨_, _, hd, rfl⟩⟩))
    · exact Or.inr (Or.inr (Or.inr ⟨fun _ => (by rw [hpc]; rfl), fun _ _ _ _ e => (by rw [hpc] at e; cases e), rfl, rfl, _, rfl,
        Or.inl rfl⟩))
  · obtain ⟨rfl, rfl, hd, rfl⟩ := h
    exact Or.inr (Or.inl ⟨_, hd, hpc, rfl, rfl, rfl⟩)
  · obtain ⟨rfl, rfl, hd, rfl⟩ := h
    exact Or.inl ⟨_, _, hpc, rfl, rfl, rfl⟩
  · exact h.elim
  · exact h.elim
  · exact h.elim
  · exact h.elim

/-- A step inside `move`. -/
theorem Inv.coreStep {c : Cfg} (hg : c.g.WF) (hw : ∀ u, 0 ≤ c.g.w u) {s0 s : State} (h : Inv c s0 s) {b u : Nat} {cur : Int}
    (hb : b < c.k) (hph : s.ph b = .moving u cur) : Inv c s0 (s.coreStep c b u cur) := by
  have hok := h.ok b hb
  have hnum := h.num b hb
  rw [hph] at hok hnum
  obtain ⟨hpc, hhere, hnot⟩ := hok
  obtain ⟨n1, n2, n3⟩ := hnum
  have hwu := hw u
  have hbusy : s.core.pc b ≠ .idle := fun e => by rw [e] at hpc; exact hpc
  have hreach := h.reach.step (.next _ b hb hbusy)
  rcases next_cases hpc with ⟨dst, mx, q1, q2, q3, q4⟩ | ⟨dst, hd, q1, q2, q3, q4⟩ |
    ⟨dst, hd, hle, -, q0, q1, q2, q3, q4⟩ | ⟨q0, q1, q2, q3, x, q4, q5⟩
  · -- the block of the node is stored
    have hh : ∀ b', b' ≠ b → ∀ v, Here c s b' v → Here c (s.coreStep c b u cur) b' v := by
      intro b' hne v hv
      refine ⟨hv.1, ?_, ?_⟩
      · unfold State.coreStep; rw [q1]
        show (s.core.next c.g.w b).part v = _
        rw [q2, upd_ne]
        · exact hv.2.1
        · rintro rfl
          exact hne (Option.some.inj (hv.2.1.symm.trans hhere.2.1))
      · unfold State.coreStep; rw [q1]; exact hv.2.2
    have hself : ∀ v, v ≠ u → Here c s b v → Here c (s.coreStep c b u cur) b v := by
      intro v hne hv
      refine ⟨hv.1, ?_, ?_⟩
      · unfold State.coreStep; rw [q1]
        show (s.core.next c.g.w b).part v = _
        rw [q2, upd_ne _ _ hne]; exact hv.2.1
      · unfold State.coreStep; rw [q1]; exact hv.2.2
    refine ⟨?_, fun b' hb' => ?_, fun b' hb' => ?_, fun b' hb' => ?_⟩
    · unfold State.coreStep; rw [q1]; exact hreach
    · by_cases e : b' = b
      · subst e
        unfold State.coreStep; rw [q1]
        show PhaseOk c _ b' (upd s.ph b' _ b')
        rw [upd_same]
        refine ⟨?_, fun v hv => ?_⟩
        · show (s.core.next c.g.w b').pc b' = _
          rw [q4, upd_same]
        · obtain ⟨e', he', rfl⟩ := List.mem_map.1 hv
          exact hg u hhere.1 e' he'
      · have hph' : (s.coreStep c b u cur).ph b' = s.ph b' := by
          unfold State.coreStep; rw [q1]; exact upd_ne _ _ e
        rw [hph']
        refine (h.ok b' hb').mono ?_ ?_ (hh b' e)
        · unfold State.coreStep; rw [q1]
          show (s.core.next c.g.w b).pc b' = _
          rw [q4, upd_ne _ _ e]
        · unfold State.coreStep; rw [q1]
    · have hpq : (s.coreStep c b u cur).pq b' = s.pq b' := by unfold State.coreStep; rw [q1]
      rw [hpq]
      refine ⟨(h.pq b' hb').1, fun v hv => ?_⟩
      have hv' := (h.pq b' hb').2 v hv
      by_cases e : b' = b
      · subst e
        exact hself v (fun e => hnot (e ▸ hv)) hv'
      · exact hh b' e v hv'
    · rw [q1] at n1
      by_cases e : b' = b
      · subst e
        unfold State.coreStep; rw [q1]
        show PhaseNum _ (c.overload (s.core.next c.g.w b').bw b') _ (upd s.delta b' _ b') _ (upd s.ph b' _ b')
        rw [upd_same, upd_same, q3]
        simp only [gone] at n1
        refine ⟨by omega, by omega⟩
      · unfold State.coreStep; rw [q1]
        show PhaseNum _ (c.overload (s.core.next c.g.w b).bw b') _ (upd s.delta b _ b') ((s.core.next c.g.w b).pc b') (upd s.ph b _ b')
        rw [upd_ne _ _ e, upd_ne _ _ e, q3, q4, upd_ne _ _ e]
        exact h.num b' hb'
  all_goals
    have hdef : s.coreStep c b u cur = { s with core := s.core.next c.g.w b, ph := upd s.ph b (if (s.core.next c.g.w b).pc b = .idle then .popped u cur else .moving u cur) } := by
      unfold State.coreStep
      split
      · rename_i heq
        first
          | exact absurd heq (q1 _ _ _ _)
          | (rw [q1] at heq; cases heq)
      · rfl
    rw [hdef]
    have hh : ∀ b' v, Here c s b' v → Here c { s with core := s.core.next c.g.w b, ph := upd s.ph b (if (s.core.next c.g.w b).pc b = .idle then .popped u cur else .moving u cur) } b' v := by
      intro b' v hv
      refine ⟨hv.1, ?_, hv.2.2⟩
      show (s.core.next c.g.w b).part v = _
      rw [q2]; exact hv.2.1
    refine ⟨hreach, fun b' hb' => ?_, fun b' hb' => ⟨(h.pq b' hb').1, fun v hv => hh b' v ((h.pq b' hb').2 v hv)⟩, fun b' hb' => ?_⟩
  · show PhaseOk c _ b' (upd s.ph b _ b')
    by_cases e : b' = b
    · subst e
      rw [upd_same, q4, upd_same, if_neg (by simp)]
      refine ⟨?_, hh _ u hhere, hnot⟩
      show PcOk c b' u ((s.core.next c.g.w b').pc b')
      rw [q4, upd_same]
      exact ⟨rfl, rfl, hd, rfl⟩
    · rw [upd_ne _ _ e]
      refine (h.ok b' hb').mono ?_ rfl (hh b')
      show (s.core.next c.g.w b).pc b' = _
      rw [q4, upd_ne _ _ e]
  · show PhaseNum _ (c.overload (s.core.next c.g.w b).bw b') _ (s.delta b') ((s.core.next c.g.w b).pc b') (upd s.ph b _ b')
    rw [q4, upd_same, if_neg (by simp), q3]
    by_cases e : b' = b
    · subst e
      rw [upd_same, upd_same]
      rw [q1] at n1
      simp only [gone, PhaseNum, Cfg.overload, upd_same] at n1 n2 ⊢
      omega
    · rw [upd_ne _ _ e, upd_ne _ _ e]
      have : c.overload (upd s.core.bw b (s.core.bw b - c.g.w u)) b' = c.overload s.core.bw b' := by
        unfold Cfg.overload; rw [upd_ne _ _ e]
      rw [this]
      exact h.num b' hb'
  · show PhaseOk c _ b' (upd s.ph b _ b')
    by_cases e : b' = b
    · subst e
      rw [upd_same, q4, upd_same, if_neg (by simp)]
      refine ⟨?_, hh _ u hhere, hnot⟩
      show PcOk c b' u ((s.core.next c.g.w b').pc b')
      rw [q4, upd_same]
      exact ⟨rfl, rfl, hd, rfl⟩
    · rw [upd_ne _ _ e]
      refine (h.ok b' hb').mono ?_ rfl (hh b')
      show (s.core.next c.g.w b).pc b' = _
      rw [q4, upd_ne _ _ e]
  · show PhaseNum _ (c.overload (s.core.next c.g.w b).bw b') _ (s.delta b') ((s.core.next c.g.w b).pc b') (upd s.ph b _ b')
    rw [q4, upd_same, if_neg (by simp), q3]
    have hov : c.overload (upd s.core.bw dst (s.core.bw dst + c.g.w u)) b' = c.overload s.core.bw b' := by
      unfold Cfg.overload
      by_cases e : b' = dst
      · subst e; rw [upd_same]; omega
      · rw [upd_ne _ _ e]
    rw [hov]
    by_cases e : b' = b
    · subst e
      rw [upd_same, upd_same]
      rw [q0] at n1
      exact ⟨n1, n2, n3⟩
    · rw [upd_ne _ _ e, upd_ne _ _ e]
      exact h.num b' hb'
  · show PhaseOk c _ b' (upd s.ph b _ b')
    by_cases e : b' = b
    · subst e
      rw [upd_same, q4, upd_same]
      have hp : (s.core.next c.g.w b').pc b' = x := by rw [q4, upd_same]
      by_cases hx : x = .idle
      · rw [if_pos hx]
        exact ⟨hp.trans hx, hh _ u hhere, hnot⟩
      · rw [if_neg hx]
        refine ⟨?_, hh _ u hhere, hnot⟩
        show PcOk c b' u ((s.core.next c.g.w b').pc b')
        rw [hp]
        obtain ⟨d, e, hd, rfl⟩ := q5.resolve_left hx
        exact ⟨rfl, rfl, hd, rfl⟩
    · rw [upd_ne _ _ e]
      refine (h.ok b' hb').mono ?_ rfl (hh b')
      show (s.core.next c.g.w b).pc b' = _
      rw [q4, upd_ne _ _ e]
  · show PhaseNum _ (c.overload (s.core.next c.g.w b).bw b') _ (s.delta b') ((s.core.next c.g.w b).pc b') (upd s.ph b _ b')
    rw [q4, upd_same, q3]
    by_cases e : b' = b
    · subst e
      rw [upd_same, upd_same]
      rw [q0] at n1
      by_cases hx : x = .idle
      · rw [if_pos hx]
        exact ⟨by omega, by omega, n3⟩
      · rw [if_neg hx]
        refine ⟨?_, n2, n3⟩
        obtain ⟨d, e, hd, rfl⟩ := q5.resolve_left hx
        exact n1
    · rw [upd_ne _ _ e, upd_ne _ _ e]
      exact h.num b' hb'

/-- All steps preserve the invariant. -/
theorem Inv.step {c : Cfg} (hg : c.g.WF) (hw : ∀ u, 0 ≤ c.g.w u) {s0 s s' : State}
    (h : Inv c s0 s) (hs : Step c s s') : Inv c s0 s' := by
  cases hs with
  | begin b hb hph =>
    have hok := h.ok b hb
    have hnum := h.num b hb
    rw [hph] at hok hnum
    refine h.phase hb _ hok ⟨rfl, ?_⟩
    obtain ⟨n1, n2⟩ := hnum
    omega
  | stop b cur hb hph hc =>
    have hok := h.ok b hb
    have hnum := h.num b hb
    rw [hph] at hok hnum
    exact h.phase hb _ hok hnum.2
  | pop b u cur hb hph hc hu =>
    have hok := h.ok b hb
    have hnum := h.num b hb
    rw [hph] at hok hnum
    have hpq := h.pq b hb
    refine h.local hb _ _ s.marked (fun _ h => h) (hpq.1.erase _) (fun v hv => hpq.2 v (List.mem_of_mem_erase hv))
      ⟨hok, hpq.2 u hu, ?_⟩ ⟨hnum.1, hnum.2, hc⟩
    show u ∉ upd s.pq b _ b
    rw [upd_same]
    exact fun hm => (List.Nodup.mem_erase_iff hpq.1).1 hm |>.1 rfl
  | readd b u cur pq hb hph ha =>
    have hok := h.ok b hb
    have hnum := h.num b hb
    rw [hph] at hok hnum
    have hpq := h.pq b hb
    refine h.local hb _ _ s.marked (fun _ h => h) (ha.nodup hpq.1 hok.2.2) (fun v hv => ?_) hok.1 ⟨hnum.1, hnum.2.1⟩
    rcases ha.sub v hv with rfl | hv
    · exact hok.2.1
    · exact hpq.2 v hv
  | try_ b u dst cur hb hph hd =>
    have hok := h.ok b hb
    have hnum := h.num b hb
    rw [hph] at hok hnum
    obtain ⟨hidle, hhere, hnot⟩ := hok
    have hh : ∀ b' v, Here c s b' v → Here c (s.call c b u dst cur) b' v := fun b' v hv => hv
    refine ⟨.step h.reach (.call _ b (.move u b dst (c.maxW dst)) hb hidle rfl ⟨hhere.1, hb, hd, hhere.2.1⟩ fun t' ht' => ?_),
      fun b' hb' => ?_, fun b' hb' => h.pq b' hb', fun b' hb' => ?_⟩
    · intro hn
      have hok' := h.ok t' ht'
      have key : ∀ v, (s.core.pc t').node? = some v → s.core.part v = some t' := by
        intro v hv
        cases hp : s.ph t' with
        | moving v' cur' =>
          rw [hp] at hok'
          obtain ⟨k1, k2, _⟩ := hok'
          have : v' = v := by
            cases hq : s.core.pc t' <;> rw [hq] at k1 hv <;> first | exact k1.elim | (obtain ⟨rfl, _⟩ := k1; exact Option.some.inj hv)
          rw [← this]
          exact k2.2.1
        | _ =>
          exfalso
          rw [hp] at hok'
          have : s.core.pc t' = .idle := by first | exact hok' | exact hok'.1
          rw [this] at hv
          cases hv
      have h1 := key u hn
      have h2 := hhere.2.1
      have : t' = b := Option.some.inj (h1.symm.trans h2)
      rw [this, hidle] at hn
      cases hn
    · show PhaseOk c _ b' (upd s.ph b _ b')
      by_cases e : b' = b
      · subst e
        rw [upd_same]
        refine ⟨?_, hhere, hnot⟩
        show PcOk c b' u (upd s.core.pc b' _ b')
        rw [upd_same]
        exact ⟨rfl, rfl, hd, rfl⟩
      · rw [upd_ne _ _ e]
        exact (h.ok b' hb').mono (upd_ne _ _ e) rfl (hh b')
    · show PhaseNum _ _ _ _ (upd s.core.pc b _ b') (upd s.ph b _ b')
      by_cases e : b' = b
      · subst e
        rw [upd_same, upd_same]
        refine ⟨?_, ?_, hnum.2.2⟩
        · show cur = c.overload s.core.bw b' + 0
          rw [add_zero]; exact hnum.1
        · show cur + s.delta b' = _
          rw [hnum.1]; exact hnum.2.1
      · rw [upd_ne _ _ e, upd_ne _ _ e]; exact h.num b' hb'
  | core b u cur hb hph => exact h.coreStep hg hw hb hph
  | next b cur hb hph =>
    have hok := h.ok b hb
    have hnum := h.num b hb
    rw [hph] at hok hnum
    exact h.phase hb _ hok.1 hnum
  | scan b v todo cur hb hph =>
    have hok := h.ok b hb
    have hnum := h.num b hb
    rw [hph] at hok hnum
    by_cases hm : s.marked v = true
    · rw [if_pos hm]
      exact h.phase hb _ ⟨hok.1, fun x hx => hok.2 x (List.mem_cons_of_mem _ hx)⟩ hnum
    · rw [if_neg hm]
      refine h.phase hb _ ⟨hok.1, fun x hx => hok.2 x (List.mem_cons_of_mem _ hx), hok.2 v List.mem_cons_self, fun hv => ?_⟩ hnum
      exact hm ((h.pq b hb).2 v hv).2.2
  | other b v todo cur hb hph hv =>
    have hok := h.ok b hb
    have hnum := h.num b hb
    rw [hph] at hok hnum
    exact h.phase hb _ ⟨hok.1, hok.2.1⟩ hnum
  | add b v todo cur pq hb hph hv ha =>
    have hok := h.ok b hb
    have hnum := h.num b hb
    rw [hph] at hok hnum
    have hpq := h.pq b hb
    have hm : ∀ u, s.marked u = true → upd s.marked v true u = true := by
      intro u hu
      by_cases e : u = v
      · subst e; rw [upd_same]
      · rw [upd_ne _ _ e]; exact hu
    refine h.local hb _ _ _ hm (ha.nodup hpq.1 hok.2.2.2) (fun x hx => ?_) ⟨hok.1, hok.2.1⟩ hnum
    rcases ha.sub x hx with rfl | hx
    · exact ⟨hok.2.2.1, hv, upd_same ..⟩
    · obtain ⟨a1, a2, a3⟩ := hpq.2 x hx
      exact ⟨a1, a2, hm x a3⟩

theorem Inv.of_reach {c : Cfg} (hg : c.g.WF) (hw : ∀ u, 0 ≤ c.g.w u) {s0 s : State} (h0 : Start c s0) (hr : Reach c s0 s) :
    Inv c s0 s := by
  induction hr with
  | refl => exact h0.inv
  | step _ hs ih => exact ih.step hg hw hs

/-- The queues suffice. -/
def Heavy (c : Cfg) (s : State) : Prop :=
  ∀ b, b < c.k → PhaseHeavy c.g.w (c.overload s.core.bw b) (pqWeight c.g.w (s.pq b)) (s.ph b)

theorem PhaseHeavy.mono {w : Nat → Int} {ov ov' pqw : Int} {p : Phase} (h : PhaseHeavy w ov pqw p) (hle : ov' ≤ ov) :
    PhaseHeavy w ov' pqw p := by
  cases p with
  | wait => exact le_trans hle h
  | done => exact le_trans hle h
  | _ => exact h

theorem weightOf_filter (n : Nat) (w : Nat → Int) (part : Nat → Option Nat) (b : Nat) :
    weightOf n w part b = pqWeight w ((List.range n).filter fun u => part u = some b) := by
  unfold weightOf pqWeight
  induction n with
  | zero => rfl
  | succ n ih =>
    rw [Finset.sum_range_succ, ih, List.range_succ, List.filter_append, List.map_append, List.sum_append]
    congr 1
    by_cases h : part n = some b
    · simp [h]
    · simp [h]

theorem Start.heavy {c : Cfg} (hw : ∀ u, 0 ≤ c.g.w u) (hm : ∀ b, b < c.k → 0 ≤ c.maxW b) {s : State} (h : Start c s) : Heavy c s := by
  intro b hb
  rw [h.wait b hb]
  show c.overload s.core.bw b ≤ pqWeight c.g.w (s.pq b)
  by_cases ho : 0 < c.overload s.core.bw b
  · obtain ⟨l, hl, hf⟩ := h.full b hb ho
    rcases hf.weight hw with h1 | h1
    · exact h1
    · have h2 : pqWeight c.g.w l = s.core.bw b := by
        rw [h.core.weights, weightOf_filter]
        exact (hl.map _).sum_eq
      have := hm b hb
      rw [h1, h2]
      unfold Cfg.overload at ho ⊢
      omega
  · have : c.overload s.core.bw b = 0 := by unfold Cfg.overload at *; omega
    rw [h.empty b hb this, this]
    exact le_refl _

theorem Heavy.phase {c : Cfg} {s : State} (h : Heavy c s) {b : Nat} (p : Phase) (pq : Nat → List Nat) (m : Nat → Bool)
    (hpq : ∀ b', b' ≠ b → pq b' = s.pq b')
    (hp : PhaseHeavy c.g.w (c.overload s.core.bw b) (pqWeight c.g.w (pq b)) p) :
    Heavy c { s with ph := upd s.ph b p, pq := pq, marked := m } := by
  intro b' hb'
  show PhaseHeavy _ _ (pqWeight _ (pq b')) (upd s.ph b p b')
  by_cases e : b' = b
  · subst e; rw [upd_same]; exact hp
  · rw [upd_ne _ _ e, hpq b' e]; exact h b' hb'

theorem coreStep_core (c : Cfg) (s : State) (b u : Nat) (cur : Int) : (s.coreStep c b u cur).core = s.core.next c.g.w b := by
  unfold State.coreStep
  split <;> rfl

/-- An atomic step changes the overload of a block only by removing a node from it. -/
theorem overload_next {c : Cfg} (hw : ∀ u, 0 ≤ c.g.w u) {s : Partitioned.State} {b u : Nat} (h : PcOk c b u (s.pc b)) (b' : Nat) :
    c.overload (s.next c.g.w b).bw b' ≤ c.overload s.bw b' := by
  have hwu := hw u
  rcases next_cases h with ⟨dst, mx, q1, q2, q3, q4⟩ | ⟨dst, hd, q1, q2, q3, q4⟩ |
    ⟨dst, hd, hle, -, q0, q1, q2, q3, q4⟩ | ⟨q0, q1, q2, q3, x, q4, q5⟩
  · rw [q3]
  · rw [q3]
    unfold Cfg.overload
    by_cases e : b' = b
    · subst e; rw [upd_same]; omega
    · rw [upd_ne _ _ e]
  · rw [q3]
    unfold Cfg.overload
    by_cases e : b' = dst
    · subst e; rw [upd_same]; omega
    · rw [upd_ne _ _ e]
  · rw [q3]

theorem Heavy.step {c : Cfg} (hw : ∀ u, 0 ≤ c.g.w u) {s0 s s' : State} (hi : Inv c s0 s) (h : Heavy c s) (hs : Step c s s') :
    Heavy c s' := by
  cases hs with
  | begin b hb hph =>
    have := h b hb
    rw [hph] at this
    exact h.phase _ s.pq s.marked (fun _ _ => rfl) this
  | stop b cur hb hph hc =>
    have hp := h b hb
    have hn := hi.num b hb
    rw [hph] at hp hn
    refine h.phase _ s.pq s.marked (fun _ _ => rfl) ?_
    show c.overload s.core.bw b ≤ 0
    rcases hc with hc | hc
    · rw [← hn.1]; exact hc
    · rw [hc] at hp
      rw [← hn.1]; exact hp
  | pop b u cur hb hph hc hu =>
    have hp := h b hb
    rw [hph] at hp
    refine h.phase _ _ s.marked (fun _ e => upd_ne _ _ e) ?_
    rw [upd_same]
    show cur ≤ pqWeight c.g.w ((s.pq b).erase u) + c.g.w u
    rw [pqWeight_erase _ hu]
    have hp : cur ≤ pqWeight c.g.w (s.pq b) := hp
    omega
  | readd b u cur pq hb hph ha =>
    have hp := h b hb
    have hn := hi.num b hb
    rw [hph] at hp hn
    refine h.phase _ _ s.marked (fun _ e => upd_ne _ _ e) ?_
    rw [upd_same]
    show cur ≤ pqWeight c.g.w pq
    have hp : cur ≤ pqWeight c.g.w (s.pq b) + c.g.w u := hp
    have := hn.1
    rcases ha.weight with h1 | h1 <;> omega
  | try_ b u dst cur hb hph hd =>
    have hp := h b hb
    rw [hph] at hp
    exact h.phase (.moving u cur) s.pq s.marked (fun _ _ => rfl) hp
  | next b cur hb hph =>
    have hp := h b hb
    rw [hph] at hp
    exact h.phase _ s.pq s.marked (fun _ _ => rfl) hp
  | scan b v todo cur hb hph =>
    have hp := h b hb
    rw [hph] at hp
    refine h.phase _ s.pq s.marked (fun _ _ => rfl) ?_
    split <;> exact hp
  | other b v todo cur hb hph hv =>
    have hp := h b hb
    rw [hph] at hp
    exact h.phase _ s.pq s.marked (fun _ _ => rfl) hp
  | add b v todo cur pq hb hph hv ha =>
    have hp := h b hb
    have hn := hi.num b hb
    rw [hph] at hp hn
    refine h.phase _ _ _ (fun _ e => upd_ne _ _ e) ?_
    rw [upd_same]
    show cur ≤ pqWeight c.g.w pq
    have hp : cur ≤ pqWeight c.g.w (s.pq b) := hp
    have := hn.1
    have := hw v
    rcases ha.weight with h1 | h1 <;> omega
  | core b u cur hb hph =>
    have hp := h b hb
    have hok := hi.ok b hb
    rw [hph] at hp hok
    intro b' hb'
    have hpq : (s.coreStep c b u cur).pq b' = s.pq b' := by unfold State.coreStep; split <;> rfl
    rw [hpq, coreStep_core]
    have hle := overload_next hw hok.1 b'
    by_cases e : b' = b
    · subst e
      unfold State.coreStep
      split
      · show PhaseHeavy _ _ _ (upd s.ph b' _ b')
        rw [upd_same]
        show cur - min cur (c.g.w u) ≤ _
        have hp : cur ≤ pqWeight c.g.w (s.pq b') + c.g.w u := hp
        have : 0 ≤ pqWeight c.g.w (s.pq b') := List.sum_nonneg fun x hx => by
          obtain ⟨v, _, rfl⟩ := List.mem_map.1 hx
          exact hw v
        omega
      · show PhaseHeavy _ _ _ (upd s.ph b' _ b')
        rw [upd_same]
        split <;> exact hp
    · have : (s.coreStep c b u cur).ph b' = s.ph b' := by
        unfold State.coreStep
        split <;> exact upd_ne _ _ e
      rw [this]
      exact (h b' hb').mono hle

theorem Heavy.of_reach {c : Cfg} (hg : c.g.WF) (hw : ∀ u, 0 ≤ c.g.w u) (hm : ∀ b, b < c.k → 0 ≤ c.maxW b) {s0 s : State}
    (h0 : Start c s0) (hr : Reach c s0 s) : Heavy c s := by
  induction hr with
  | refl => exact h0.heavy hw hm
  | step hr hs ih => exact ih.step hw (.of_reach hg hw h0 hr) hs

end Verif.Balancer
