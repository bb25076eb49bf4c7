import Verif.Partitioned.Model

/-!
# C17: block weights are the weights of the assigned nodes.  C18: checked moves never overload a block
-/

namespace Verif.Partitioned
open Finset

/-- Specification: the weight of the nodes `< n` assigned to block `b`. -/
def weightOf (n : Nat) (w : Nat → Int) (part : Nat → Option Nat) (b : Nat) : Int :=
  ∑ u ∈ range n, if part u = some b then w u else 0

/-- Specification: the partition after the successful operations of a history. -/
def replay (part : Nat → Option Nat) (hist : List (Op × Bool)) : Nat → Option Nat :=
  hist.foldl (fun part o => match o with
    | (.move u _ dst _, true) => upd part u (some dst)
    | (.setBlock u dst, true) => upd part u (some dst)
    | (_, false) => part) part

/-- What an operation in flight has already done to the weight of block `b`. -/
def pend (w : Nat → Int) (b : Nat) : PC → Int
  | .moveDec u _ dst _ => if dst = b then w u else 0
  | .moveStore u src dst _ => (if dst = b then w u else 0) - (if src = b then w u else 0)
  | .setInc u src _ => - (if src = some b then w u else 0)
  | .setStore u src dst => (if dst = b then w u else 0) - (if src = some b then w u else 0)
  | _ => 0

/-- The source a thread believes its node to be in is right, and blocks are valid. -/
def PC.valid (n k : Nat) (part : Nat → Option Nat) : PC → Prop
  | .idle => True
  | .moveLoad u src dst _ | .moveCas u src dst _ _ | .moveDec u src dst _ | .moveStore u src dst _
  | .setDec u src dst => u < n ∧ part u = some src ∧ dst < k
  | .setLoad u dst => u < n ∧ dst < k
  | .setInc u src dst | .setStore u src dst => u < n ∧ part u = src ∧ dst < k

structure Inv (n k T : Nat) (w : Nat → Int) (part0 : Nat → Option Nat) (s : State) : Prop where
  bal : ∀ b, s.bw b = weightOf n w s.part b + ∑ t ∈ range T, pend w b (s.pc t)
  valid : ∀ t, t < T → (s.pc t).valid n k s.part
  excl : ∀ t t', t < T → t' < T → t ≠ t' → ∀ u, (s.pc t).node? = some u → (s.pc t').node? ≠ some u
  range : ∀ u b, u < n → s.part u = some b → b < k
  hist : s.part = replay part0 s.hist

theorem replay_append (part : Nat → Option Nat) (h : List (Op × Bool)) (o : Op × Bool) :
    replay part (h ++ [o]) = match o with
      | (.move u _ dst _, true) => upd (replay part h) u (some dst)
      | (.setBlock u dst, true) => upd (replay part h) u (some dst)
      | (_, false) => replay part h := by
  unfold replay
  rw [List.foldl_append]
  rfl

/-- Reassigning a node. -/
theorem weightOf_upd {n : Nat} (w : Nat → Int) (part : Nat → Option Nat) {u : Nat} (hu : u < n) (x : Option Nat)
    (b : Nat) : weightOf n w (upd part u x) b = weightOf n w part b -
      (if part u = some b then w u else 0) + (if x = some b then w u else 0) :=
  sum_upd (range n) (fun u x => if x = some b then w u else 0) part (mem_range.2 hu) x

theorem pend_upd {T : Nat} (w : Nat → Int) (b : Nat) (pc : Nat → PC) {t : Nat} (ht : t < T) (x : PC) :
    ∑ i ∈ range T, pend w b (upd pc t x i) =
      ∑ i ∈ range T, pend w b (pc i) - pend w b (pc t) + pend w b x :=
  sum_upd (range T) (fun _ x => pend w b x) pc (mem_range.2 ht) x

/-- A step that changes only the thread's position, to one on the same node or none. -/
theorem excl_upd {T : Nat} {pc : Nat → PC} {t : Nat} {x : PC}
    (h : ∀ t1 t2, t1 < T → t2 < T → t1 ≠ t2 → ∀ u, (pc t1).node? = some u → (pc t2).node? ≠ some u)
    (ht : t < T) (hx : ∀ t', t' < T → t' ≠ t → ∀ u, x.node? = some u → (pc t').node? ≠ some u) :
    ∀ t1 t2, t1 < T → t2 < T → t1 ≠ t2 → ∀ u, (upd pc t x t1).node? = some u →
      (upd pc t x t2).node? ≠ some u := by
  intro t1 t2 h1 h2 hne u hu
  by_cases e1 : t1 = t
  · subst e1
    rw [upd_same] at hu
    rw [upd_ne _ _ (Ne.symm hne)]
    exact hx t2 h2 (Ne.symm hne) u hu
  · rw [upd_ne _ _ e1] at hu
    by_cases e2 : t2 = t
    · subst e2
      rw [upd_same]
      intro hxu
      exact hx t1 h1 e1 u hxu hu
    · rw [upd_ne _ _ e2]
      exact h t1 t2 h1 h2 hne u hu

/-- Positions of other threads stay valid when the partition changes at a node they do not work on. -/
theorem PC.valid_upd {n k : Nat} {part : Nat → Option Nat} {pc : PC} (h : pc.valid n k part) {u : Nat}
    (hne : pc.node? ≠ some u) (x : Option Nat) : pc.valid n k (upd part u x) := by
  cases pc <;> simp only [PC.valid, PC.node?, ne_eq, Option.some.injEq] at * <;>
    first
    | trivial
    | exact h
    | (rw [upd_ne _ _ hne]; exact h)

theorem valid_upd {n k T : Nat} {part : Nat → Option Nat} {pc : Nat → PC} {t : Nat} {x : PC}
    (h : ∀ t, t < T → (pc t).valid n k part) (hx : x.valid n k part) :
    ∀ t', t' < T → (upd pc t x t').valid n k part := by
  intro t' ht'
  by_cases e : t' = t
  · subst e; rw [upd_same]; exact hx
  · rw [upd_ne _ _ e]; exact h t' ht'

/-- The new position of a thread concerns the same node. -/
theorem excl_next {T : Nat} {pc : Nat → PC} {t : Nat} {x : PC}
    (h : ∀ t1 t2, t1 < T → t2 < T → t1 ≠ t2 → ∀ u, (pc t1).node? = some u → (pc t2).node? ≠ some u)
    (ht : t < T) (hx : ∀ u, x.node? = some u → (pc t).node? = some u) :
    ∀ t1 t2, t1 < T → t2 < T → t1 ≠ t2 → ∀ u, (upd pc t x t1).node? = some u →
      (upd pc t x t2).node? ≠ some u :=
  excl_upd h ht fun t' ht' hne u hu => h t t' ht ht' (Ne.symm hne) u (hx u hu)

theorem Inv.next {n k T : Nat} {w : Nat → Int} {part0 : Nat → Option Nat} {s : State}
    (h : Inv n k T w part0 s) {t : Nat} (ht : t < T) : Inv n k T w part0 (s.next w t) := by
  obtain ⟨hbal, hval, hex, hrg, hh⟩ := h
  have hv := hval t ht
  unfold State.next
  split <;> rename_i hpc
  · exact ⟨hbal, hval, hex, hrg, hh⟩
  · -- moveLoad
    rw [hpc] at hv
    refine ⟨fun b => ?_, valid_upd hval hv, excl_next hex ht fun u hu => by rw [hpc]; exact hu, hrg, hh⟩
    show s.bw b = _ + _
    rw [pend_upd w b s.pc ht, hpc, hbal b]
    simp [pend]
  · -- moveCas
    rename_i u src dst mx e
    rw [hpc] at hv
    split
    · split
      · rename_i hcas
        refine ⟨fun b => ?_, valid_upd hval hv, excl_next hex ht fun u hu => by rw [hpc]; exact hu, hrg, hh⟩
        show upd s.bw dst (e + w u) b = weightOf n w s.part b + _
        rw [pend_upd w b s.pc ht, hpc]
        have := hbal b
        by_cases hb : b = dst
        · subst hb
          rw [upd_same, ← hcas, this]
          simp only [pend, if_true]; ring
        · rw [upd_ne _ _ hb, this]
          simp only [pend, if_neg (Ne.symm hb)]; ring
      · refine ⟨fun b => ?_, valid_upd hval hv, excl_next hex ht fun u hu => by rw [hpc]; exact hu, hrg, hh⟩
        show s.bw b = _ + _
        rw [pend_upd w b s.pc ht, hpc, hbal b]
        simp [pend]
    · refine ⟨fun b => ?_, valid_upd hval trivial, excl_next hex ht (fun u hu => nomatch hu), hrg, ?_⟩
      · show s.bw b = _ + _
        rw [pend_upd w b s.pc ht, hpc, hbal b]
        simp [pend]
      · show s.part = replay part0 (s.hist ++ [_])
        rw [replay_append]; exact hh
  · -- moveDec
    rename_i u src dst mx
    rw [hpc] at hv
    refine ⟨fun b => ?_, valid_upd hval hv, excl_next hex ht fun u hu => by rw [hpc]; exact hu, hrg, hh⟩
    show upd s.bw src (s.bw src - w u) b = weightOf n w s.part b + _
    rw [pend_upd w b s.pc ht, hpc]
    have := hbal b
    by_cases hb : b = src
    · subst hb
      rw [upd_same, this]
      simp only [pend, if_true]; ring
    · rw [upd_ne _ _ hb, this]
      simp only [pend, if_neg (Ne.symm hb)]; ring
  · -- moveStore
    rename_i u src dst mx
    rw [hpc] at hv
    refine ⟨fun b => ?_, ?_, excl_next hex ht (fun u hu => nomatch hu), ?_, ?_⟩
    · show s.bw b = weightOf n w (upd s.part u (some dst)) b + _
      rw [pend_upd w b s.pc ht, hpc, weightOf_upd w s.part hv.1, hv.2.1, hbal b]
      simp only [pend, Option.some.injEq]; ring
    · intro t' ht'
      show (upd s.pc t PC.idle t').valid n k (upd s.part u (some dst))
      by_cases e : t' = t
      · subst e; rw [upd_same]; trivial
      · rw [upd_ne _ _ e]
        exact PC.valid_upd (hval t' ht') (hex t t' ht ht' (Ne.symm e) u (by rw [hpc]; rfl)) _
    · intro v b hv' hb
      by_cases e : v = u
      · subst e
        have hb : upd s.part v (some dst) v = some b := hb
        rw [upd_same] at hb
        cases hb; exact hv.2.2
      · have hb : upd s.part u (some dst) v = some b := hb
        rw [upd_ne _ _ e] at hb
        exact hrg v b hv' hb
    · show upd s.part u (some dst) = replay part0 (s.hist ++ [_])
      rw [replay_append, ← hh]
  · -- setLoad
    rename_i u dst
    rw [hpc] at hv
    split <;> rename_i hpart
    · refine ⟨fun b => ?_, valid_upd hval ⟨hv.1, hpart, hv.2⟩,
        excl_next hex ht fun u hu => by rw [hpc]; exact hu, hrg, hh⟩
      show s.bw b = _ + _
      rw [pend_upd w b s.pc ht, hpc, hbal b]
      simp [pend]
    · refine ⟨fun b => ?_, valid_upd hval ⟨hv.1, hpart, hv.2⟩,
        excl_next hex ht fun u hu => by rw [hpc]; exact hu, hrg, hh⟩
      show s.bw b = _ + _
      rw [pend_upd w b s.pc ht, hpc, hbal b]
      simp [pend]
  · -- setDec
    rename_i u src dst
    rw [hpc] at hv
    refine ⟨fun b => ?_, valid_upd hval hv, excl_next hex ht fun u hu => by rw [hpc]; exact hu, hrg, hh⟩
    show upd s.bw src (s.bw src - w u) b = weightOf n w s.part b + _
    rw [pend_upd w b s.pc ht, hpc]
    have := hbal b
    by_cases hb : b = src
    · subst hb
      rw [upd_same, this]
      simp only [pend, if_true]; ring
    · rw [upd_ne _ _ hb, this]
      simp only [pend, Option.some.injEq, if_neg (Ne.symm hb)]; ring
  · -- setInc
    rename_i u src dst
    rw [hpc] at hv
    refine ⟨fun b => ?_, valid_upd hval hv, excl_next hex ht fun u hu => by rw [hpc]; exact hu, hrg, hh⟩
    show upd s.bw dst (s.bw dst + w u) b = weightOf n w s.part b + _
    rw [pend_upd w b s.pc ht, hpc]
    have := hbal b
    by_cases hb : b = dst
    · subst hb
      rw [upd_same, this]
      simp only [pend, if_true]; ring
    · rw [upd_ne _ _ hb, this]
      simp only [pend, if_neg (Ne.symm hb)]; ring
  · -- setStore
    rename_i u src dst
    rw [hpc] at hv
    refine ⟨fun b => ?_, ?_, excl_next hex ht (fun u hu => nomatch hu), ?_, ?_⟩
    · show s.bw b = weightOf n w (upd s.part u (some dst)) b + _
      rw [pend_upd w b s.pc ht, hpc, weightOf_upd w s.part hv.1, hv.2.1, hbal b]
      simp only [pend, Option.some.injEq]; ring
    · intro t' ht'
      show (upd s.pc t PC.idle t').valid n k (upd s.part u (some dst))
      by_cases e : t' = t
      · subst e; rw [upd_same]; trivial
      · rw [upd_ne _ _ e]
        exact PC.valid_upd (hval t' ht') (hex t t' ht ht' (Ne.symm e) u (by rw [hpc]; rfl)) _
    · intro v b hv' hb
      by_cases e : v = u
      · subst e
        have hb : upd s.part v (some dst) v = some b := hb
        rw [upd_same] at hb
        cases hb; exact hv.2.2
      · have hb : upd s.part u (some dst) v = some b := hb
        rw [upd_ne _ _ e] at hb
        exact hrg v b hv' hb
    · show upd s.part u (some dst) = replay part0 (s.hist ++ [_])
      rw [replay_append, ← hh]

theorem Inv.step {n k T : Nat} {w : Nat → Int} {A : Op → Prop} {part0 : Nat → Option Nat} {s s' : State}
    (h : Inv n k T w part0 s) (hs : Step n k T w A s s') : Inv n k T w part0 s' := by
  cases hs with
  | call t op ht hidle hA hok hfree =>
    obtain ⟨hbal, hval, hex, hrg, hh⟩ := h
    refine ⟨fun b => ?_, valid_upd hval ?_, excl_upd hex ht ?_, hrg, hh⟩
    · show s.bw b = weightOf n w s.part b + _
      rw [pend_upd w b s.pc ht, hidle, hbal b]
      cases op <;> simp [pend, Op.start]
    · cases op with
      | move u src dst mx => exact ⟨hok.1, hok.2.2.2, hok.2.2.1⟩
      | setBlock u dst => exact hok
    · intro t' ht' _ u hu
      have : u = op.node := by cases op <;> simpa [Op.start, PC.node?, Op.node] using hu.symm
      rw [this]; exact hfree t' ht'
  | next t ht hbusy => exact h.next ht

theorem Inv.reach {n k T : Nat} {w : Nat → Int} {A : Op → Prop} {part0 : Nat → Option Nat} {s s' : State}
    (h : Inv n k T w part0 s) (hr : Reach n k T w A s s') : Inv n k T w part0 s' := by
  induction hr with
  | refl => exact h
  | step _ hs ih => exact ih.step hs

/-- An initial state: no operation was called, every assigned block exists and the block weights are the
weights of the assigned nodes. -/
structure Init (n k T : Nat) (w : Nat → Int) (s : State) : Prop where
  idle : ∀ t, t < T → s.pc t = .idle
  hist : s.hist = []
  range : ∀ u b, u < n → s.part u = some b → b < k
  weights : ∀ b, s.bw b = weightOf n w s.part b

theorem pend_idle {T : Nat} {w : Nat → Int} {pc : Nat → PC} (h : ∀ t, t < T → pc t = .idle) (b : Nat) :
    ∑ t ∈ range T, pend w b (pc t) = 0 :=
  Finset.sum_eq_zero fun t ht => by rw [h t (mem_range.1 ht)]; rfl

theorem Init.inv {n k T : Nat} {w : Nat → Int} {s : State} (h : Init n k T w s) :
    Inv n k T w s.part s := by
  refine ⟨fun b => ?_, fun t ht => by rw [h.idle t ht]; trivial, ?_, h.range, by rw [h.hist]; rfl⟩
  · rw [pend_idle h.idle, h.weights b, add_zero]
  · intro t t' ht _ _ u hu
    rw [h.idle t ht] at hu; cases hu

/-- **C17.**  Any number of threads perform any operations, in any interleaving of their atomic steps.
Whenever no operation is in flight, each block's weight is the weight of the nodes assigned to it, and
the partition is the initial one changed by exactly the successful operations, in order. -/
theorem C17_block_weights (n k T : Nat) (w : Nat → Int) (A : Op → Prop) (s0 s : State)
    (h0 : Init n k T w s0) (hr : Reach n k T w A s0 s) (hq : ∀ t, t < T → s.pc t = .idle) :
    (∀ b, s.bw b = weightOf n w s.part b) ∧ s.part = replay s0.part s.hist ∧
      (∀ u b, u < n → s.part u = some b → b < k) := by
  have h := h0.inv.reach hr
  refine ⟨fun b => ?_, h.hist, h.range⟩
  rw [h.bal b, pend_idle hq, add_zero]

/-- The absolute weight of the nodes being moved at the moment. -/
def inFlight (T : Nat) (w : Nat → Int) (s : State) : Int :=
  ∑ t ∈ range T, match (s.pc t).node? with
    | none => 0
    | some u => |w u|

theorem pend_le (w : Nat → Int) (b : Nat) (pc : PC) : |pend w b pc| ≤ match pc.node? with
    | none => 0
    | some u => |w u| := by
  cases pc <;> simp only [pend, PC.node?] <;> (try split_ifs) <;> simp

/-- **C17, during moves.**  At every point of every interleaving the weight of a block differs from the
weight of the assigned nodes by at most the weight of the nodes being moved. -/
theorem C17_in_flight (n k T : Nat) (w : Nat → Int) (A : Op → Prop) (s0 s : State)
    (h0 : Init n k T w s0) (hr : Reach n k T w A s0 s) (b : Nat) :
    |s.bw b - weightOf n w s.part b| ≤ inFlight T w s := by
  have h := h0.inv.reach hr
  rw [h.bal b, add_sub_cancel_left]
  exact (Finset.abs_sum_le_sum_abs _ _).trans (Finset.sum_le_sum fun t _ => pend_le w b (s.pc t))

theorem sum_if_eq (k : Nat) (x : Int) (c : Nat) :
    ∑ b ∈ range k, (if c = b then x else 0) = if c < k then x else 0 := by
  rw [Finset.sum_ite_eq]; simp

theorem pend_sum_le {n k : Nat} {part : Nat → Option Nat} (w : Nat → Int) (pc : PC) (hv : pc.valid n k part)
    (hrg : ∀ u b, u < n → part u = some b → b < k) :
    |∑ b ∈ range k, pend w b pc| ≤ match pc.node? with
      | none => 0
      | some u => |w u| := by
  cases pc <;> simp only [pend, PC.node?, Finset.sum_const_zero, abs_zero, le_refl, abs_nonneg]
  · rw [sum_if_eq]; split_ifs <;> simp
  · rw [Finset.sum_sub_distrib, sum_if_eq, sum_if_eq]
    obtain ⟨h1, h2, h3⟩ := hv
    rw [if_pos h3, if_pos (hrg _ _ h1 h2)]; simp
  · rename_i u src dst
    cases src with
    | none => simp
    | some c =>
      simp only [Option.some.injEq]
      rw [Finset.sum_neg_distrib, sum_if_eq, abs_neg]; split_ifs <;> simp
  · rename_i u src dst
    obtain ⟨h1, h2, h3⟩ := hv
    cases src with
    | none =>
      simp only [reduceCtorEq, if_false, sub_zero]
      rw [sum_if_eq, if_pos h3]
    | some c =>
      simp only [Option.some.injEq]
      rw [Finset.sum_sub_distrib, sum_if_eq, sum_if_eq, if_pos h3, if_pos (hrg _ _ h1 h2)]; simp

theorem weightOf_sum {n k : Nat} (w : Nat → Int) {part : Nat → Option Nat}
    (hrg : ∀ u b, u < n → part u = some b → b < k) :
    ∑ b ∈ range k, weightOf n w part b = ∑ u ∈ range n, if part u = none then 0 else w u := by
  unfold weightOf
  rw [Finset.sum_comm]
  apply Finset.sum_congr rfl
  intro u hu
  cases hp : part u with
  | none => simp
  | some c =>
    simp only [Option.some.injEq, reduceCtorEq, if_false]
    rw [sum_if_eq, if_pos (hrg u c (mem_range.1 hu) hp)]

/-- **C17, conservation.**  At every point the sum of all block weights differs from the weight of the
assigned nodes by at most the weight of the nodes being moved. -/
theorem C17_conserved (n k T : Nat) (w : Nat → Int) (A : Op → Prop) (s0 s : State)
    (h0 : Init n k T w s0) (hr : Reach n k T w A s0 s) :
    |∑ b ∈ range k, s.bw b - ∑ u ∈ range n, (if s.part u = none then 0 else w u)| ≤ inFlight T w s := by
  have h := h0.inv.reach hr
  rw [Finset.sum_congr rfl fun b _ => h.bal b, Finset.sum_add_distrib, weightOf_sum w h.range,
    add_sub_cancel_left, Finset.sum_comm]
  exact (Finset.abs_sum_le_sum_abs _ _).trans
    (Finset.sum_le_sum fun t ht => pend_sum_le w (s.pc t) (h.valid t (mem_range.1 ht)) h.range)

/-! ## C18 -/

/-- All operations that may put weight into `b` are moves with a limit of at most `L`. -/
def Limited (b : Nat) (L : Int) : Op → Prop
  | .move _ _ dst max => dst = b → max ≤ L
  | .setBlock _ dst => dst ≠ b

/-- Positions of operations allowed by `Limited`. -/
def PC.limited (b : Nat) (L : Int) : PC → Prop
  | .moveLoad _ _ dst max | .moveCas _ _ dst max _ => dst = b → max ≤ L
  | .setLoad _ dst | .setDec _ _ dst | .setInc _ _ dst => dst ≠ b
  | _ => True

theorem limited_next {T : Nat} {w : Nat → Int} (hw : ∀ u, 0 ≤ w u) {b : Nat} {L B : Int} {s : State}
    (hb : s.bw b ≤ max B L) (hl : ∀ t, t < T → (s.pc t).limited b L) {t : Nat} (ht : t < T) :
    (s.next w t).bw b ≤ max B L ∧ ∀ t', t' < T → ((s.next w t).pc t').limited b L := by
  have hlt := hl t ht
  have hpcs : ∀ x : PC, x.limited b L → ∀ t', t' < T → (upd s.pc t x t').limited b L := by
    intro x hx t' ht'
    by_cases e : t' = t
    · subst e; rw [upd_same]; exact hx
    · rw [upd_ne _ _ e]; exact hl t' ht'
  have hdec : ∀ (src u : Nat), upd s.bw src (s.bw src - w u) b ≤ max B L := by
    intro src u
    by_cases e : b = src
    · subst e; rw [upd_same]; have := hw u; omega
    · rw [upd_ne _ _ e]; exact hb
  unfold State.next
  split <;> rename_i hpc <;> rw [hpc] at hlt
  · exact ⟨hb, hl⟩
  · exact ⟨hb, hpcs _ hlt⟩
  · rename_i u src dst mx e
    split
    · rename_i hle
      split
      · refine ⟨?_, hpcs _ trivial⟩
        show upd s.bw dst (e + w u) b ≤ _
        by_cases hd : b = dst
        · subst hd
          rw [upd_same]
          have := hlt rfl
          omega
        · rw [upd_ne _ _ hd]; exact hb
      · exact ⟨hb, hpcs _ hlt⟩
    · exact ⟨hb, hpcs _ trivial⟩
  · exact ⟨hdec _ _, hpcs _ trivial⟩
  · exact ⟨hb, hpcs _ trivial⟩
  · split
    · exact ⟨hb, hpcs _ hlt⟩
    · exact ⟨hb, hpcs _ hlt⟩
  · exact ⟨hdec _ _, hpcs _ hlt⟩
  · rename_i u src dst
    refine ⟨?_, hpcs _ trivial⟩
    show upd s.bw dst (s.bw dst + w u) b ≤ _
    rw [upd_ne _ _ (Ne.symm hlt)]; exact hb
  · exact ⟨hb, hpcs _ trivial⟩

/-- **C18.**  If weight enters block `b` only by moves with a limit of at most `L`, then no interleaving of
any number of threads ever brings the block above `L`, or above its weight at the start. -/
theorem C18_never_overloaded (n k T : Nat) (w : Nat → Int) (hw : ∀ u, 0 ≤ w u) (b : Nat) (L : Int)
    (s0 s : State) (hidle : ∀ t, t < T → s0.pc t = .idle)
    (hr : Reach n k T w (Limited b L) s0 s) : s.bw b ≤ max (s0.bw b) L := by
  suffices h : s.bw b ≤ max (s0.bw b) L ∧ ∀ t, t < T → (s.pc t).limited b L from h.1
  induction hr with
  | refl => exact ⟨le_max_left _ _, fun t ht => by rw [hidle t ht]; trivial⟩
  | step _ hs ih =>
    obtain ⟨ih1, ih2⟩ := ih
    cases hs with
    | next t ht _ => exact limited_next hw ih1 ih2 ht
    | call t op ht _ hA _ _ =>
      refine ⟨ih1, fun t' ht' => ?_⟩
      show (upd _ t op.start t').limited b L
      by_cases e : t' = t
      · subst e
        rw [upd_same]
        cases op <;> exact hA
      · rw [upd_ne _ _ e]; exact ih2 t' ht'

/-- **C18, rejection.**  A step that ends an operation with `false` changes neither partition nor block
weights, and neither does any earlier step of that operation: the steps before the decision
(`moveLoad`, `moveCas`) change them only when the move is accepted. -/
theorem C18_rejected_changes_nothing (w : Nat → Int) (s : State) (t u src dst : Nat) (mx : Int)
    (hpc : s.pc t = .moveLoad u src dst mx ∨ ∃ e, s.pc t = .moveCas u src dst mx e) :
    ((s.next w t).part = s.part ∧ (s.next w t).bw = s.bw ∧
      ((∃ e, (s.next w t).pc t = .moveCas u src dst mx e) ∨
        ((s.next w t).pc t = .idle ∧ (s.next w t).hist = s.hist ++ [(.move u src dst mx, false)]))) ∨
    ((s.next w t).pc t = .moveDec u src dst mx ∧ s.bw dst + w u ≤ mx ∧
      (s.next w t).bw = upd s.bw dst (s.bw dst + w u)) := by
  rcases hpc with hpc | ⟨e, hpc⟩
  · left
    unfold State.next
    rw [hpc]
    exact ⟨rfl, rfl, Or.inl ⟨_, upd_same ..⟩⟩
  · unfold State.next
    rw [hpc]
    simp only
    split
    · rename_i hle
      split
      · rename_i heq
        right
        subst heq
        exact ⟨upd_same .., hle, rfl⟩
      · left
        exact ⟨rfl, rfl, Or.inl ⟨_, upd_same ..⟩⟩
    · left
      exact ⟨rfl, rfl, Or.inr ⟨upd_same .., rfl⟩⟩

/-- **C18, acceptance.**  A move that runs without interference succeeds exactly when it fits. -/
theorem C18_accepts_iff_fits (w : Nat → Int) (s : State) (t u src dst : Nat) (mx : Int)
    (hpc : s.pc t = .moveLoad u src dst mx) :
    (s.bw dst + w u ≤ mx → ∃ s', s' = ((((s.next w t).next w t).next w t).next w t) ∧
      s'.hist = s.hist ++ [(.move u src dst mx, true)] ∧ s'.part = upd s.part u (some dst)) ∧
    (¬ s.bw dst + w u ≤ mx → ∃ s', s' = (s.next w t).next w t ∧
      s'.hist = s.hist ++ [(.move u src dst mx, false)] ∧ s'.part = s.part ∧ s'.bw = s.bw) := by
  have h1 : s.next w t = { s with pc := upd s.pc t (.moveCas u src dst mx (s.bw dst)) } := by
    unfold State.next; rw [hpc]
  constructor
  · intro hle
    refine ⟨_, rfl, ?_⟩
    rw [h1]
    simp [State.next, hle]
  · intro hle
    refine ⟨_, rfl, ?_⟩
    rw [h1]
    simp [State.next, hle]

/-! ## Non-vacuity -/

/-- Three nodes of weights 3, 4, 5 in two blocks; threads 0 and 1 move nodes 0 and 1 to block 1 with limit
10 at the same time: only one of the moves fits. -/
def exState : State :=
  { part := fun u => if u = 2 then some 1 else some 0
    bw := fun b => if b = 0 then 7 else if b = 1 then 5 else 0
    pc := fun _ => .idle, hist := [] }

def exW (u : Nat) : Int := if u = 0 then 3 else if u = 1 then 4 else if u = 2 then 5 else 0

theorem exInit : Init 3 2 2 exW exState := by
  refine ⟨fun _ _ => rfl, rfl, ?_, ?_⟩
  · intro u b hu h
    simp only [exState] at h
    split at h <;> cases h <;> omega
  · intro b
    show (if b = 0 then 7 else if b = 1 then 5 else 0 : Int) =
      ∑ u ∈ range 3, if (if u = 2 then some 1 else some 0) = some b then exW u else 0
    rw [Finset.sum_range_succ, Finset.sum_range_succ, Finset.sum_range_succ, Finset.sum_range_zero]
    by_cases h0 : b = 0
    · subst h0; rfl
    · by_cases h1 : b = 1
      · subst h1; rfl
      · simp [h0, h1, Ne.symm h0, Ne.symm h1]

example : ∃ s, Reach 3 2 2 exW (Limited 1 10) exState s ∧ (∀ t, t < 2 → s.pc t = .idle) ∧
    s.hist = [(.move 1 0 1 10, true), (.move 0 0 1 10, false)] ∧ s.bw 0 = 3 ∧ s.bw 1 = 9 := by
  refine ⟨_, .step (.step (.step (.step (.step (.step (.step (.step (.step (.refl _)
    (.call _ 0 (.move 0 0 1 10) (by omega) rfl (by simp [Limited]) ?_ ?_))
    (.call _ 1 (.move 1 0 1 10) (by omega) rfl (by simp [Limited]) ?_ ?_))
    (.next _ 0 (by omega) ?_)) (.next _ 1 (by omega) ?_)) (.next _ 1 (by omega) ?_))
    (.next _ 0 (by omega) ?_)) (.next _ 1 (by omega) ?_)) (.next _ 1 (by omega) ?_))
    (.next _ 0 (by omega) ?_), ?_, ?_, ?_, ?_⟩
  · exact ⟨by omega, by omega, by omega, rfl⟩
  · intro t' ht'; simp [exState, PC.node?]
  · exact ⟨by omega, by omega, by omega, rfl⟩
  · intro t' ht'
    have : t' = 0 ∨ t' = 1 := by omega
    rcases this with rfl | rfl <;> simp [exState, PC.node?, upd, Op.start, Op.node]
  · decide
  · decide
  · decide
  · decide
  · decide
  · decide
  · decide
  · intro t ht
    have : t = 0 ∨ t = 1 := by omega
    rcases this with rfl | rfl <;> decide
  · decide
  · decide
  · decide

/-! ## Initial block weights -/

theorem initLocal_spec (w : Nat → Int) (part : Nat → Option Nat) (b : Nat) : ∀ (us : List Nat) (bw : Nat → Int),
    initLocal w part us bw b = bw b + (us.map fun u => if part u = some b then w u else 0).sum
  | [], bw => by simp [initLocal]
  | u :: us, bw => by
    have ih := initLocal_spec w part b us
    unfold initLocal at *
    rw [List.foldl_cons, ih, List.map_cons, List.sum_cons, ← add_assoc]
    congr 1
    cases h : part u with
    | none => simp
    | some c =>
      simp only [Option.some.injEq]
      by_cases hc : c = b
      · subst hc; rw [upd_same, if_pos rfl]
      · rw [upd_ne _ _ (Ne.symm hc), if_neg hc, add_zero]

theorem weightOf_list (n : Nat) (w : Nat → Int) (part : Nat → Option Nat) (b : Nat) :
    weightOf n w part b = ((List.range n).map fun u => if part u = some b then w u else 0).sum := by
  unfold weightOf
  rw [Finset.sum_eq_multiset_sum]
  rfl

/-- **C17, sequential constructor.** -/
theorem C17_init_sequential (n : Nat) (w : Nat → Int) (part : Nat → Option Nat) (b : Nat) :
    initSeq n w part b = weightOf n w part b := by
  rw [weightOf_list]
  have := initLocal_spec w part b (List.range n) fun _ => 0
  rw [zero_add] at this
  exact this

theorem foldl_sum (f : Nat → Int) : ∀ (l : List Nat) (a : Int),
    l.foldl (fun s t => s + f t) a = a + (l.map f).sum
  | [], a => by simp
  | x :: l, a => by rw [List.foldl_cons, foldl_sum f l, List.map_cons, List.sum_cons, add_assoc]

/-- **C17, parallel constructor.**  Whatever ranges the nodes are split into, in whatever order and by
whichever threads they are processed. -/
theorem C17_init_parallel (n : Nat) (w : Nat → Int) (part : Nat → Option Nat) (T : Nat)
    (chunks : List (Nat × List Nat)) (hT : ∀ c ∈ chunks, c.1 < T)
    (hperm : (chunks.flatMap Prod.snd).Perm (List.range n)) (b : Nat) :
    initPar w part T chunks b = weightOf n w part b := by
  have key : ∀ (chunks : List (Nat × List Nat)) (ets : Nat → Nat → Int), (∀ c ∈ chunks, c.1 < T) →
      ∑ t ∈ range T, chunks.foldl (fun ets c => upd ets c.1 (initLocal w part c.2 (ets c.1))) ets t b =
        ∑ t ∈ range T, ets t b +
          ((chunks.flatMap Prod.snd).map fun u => if part u = some b then w u else 0).sum := by
    intro chunks
    induction chunks with
    | nil => intro ets _; simp
    | cons c chunks ih =>
      intro ets h
      rw [List.foldl_cons, ih _ fun c' hc' => h c' (List.mem_cons_of_mem _ hc'), List.flatMap_cons,
        List.map_append, List.sum_append, ← add_assoc]
      congr 1
      rw [sum_upd (range T) (fun _ (f : Nat → Int) => f b) ets (mem_range.2 (h c List.mem_cons_self)),
        initLocal_spec]
      ring
  have h1 := key chunks (fun _ _ => 0) hT
  rw [weightOf_list, ← (hperm.map _).sum_eq]
  show (List.range T).foldl (fun sum t => sum + _) 0 = _
  rw [foldl_sum, zero_add]
  rw [Finset.sum_const_zero, zero_add] at h1
  rw [← h1, Finset.sum_eq_multiset_sum]
  rfl

example : ([(1, [2, 3]), (0, [0]), (1, [1])] : List (Nat × List Nat)).flatMap Prod.snd
    |>.Perm (List.range 4) := by decide

/-- **C17, constructor for 65536 or more blocks.**  If every node is assigned. -/
theorem C17_init_atomic_partial (n : Nat) (w : Nat → Int) (part : Nat → Option Nat)
    (hass : ∀ u, u < n → part u ≠ none) (us : List Nat) (hperm : us.Perm (List.range n)) :
    ∃ bw, initAtomic w part us = some bw ∧ ∀ b, bw b = weightOf n w part b := by
  have key : ∀ (us : List Nat) (bw : Nat → Int), (∀ u ∈ us, part u ≠ none) →
      us.foldlM (fun bw u => match part u with
        | none => none
        | some b => some (upd bw b (bw b + w u))) bw = some (initLocal w part us bw) := by
    intro us
    induction us with
    | nil => intro bw _; rfl
    | cons u us ih =>
      intro bw h
      have hu := h u List.mem_cons_self
      rw [List.foldlM_cons]
      cases hp : part u with
      | none => exact absurd hp hu
      | some c =>
        simp only [Option.bind_eq_bind, Option.bind_some]
        rw [ih _ fun v hv => h v (List.mem_cons_of_mem _ hv)]
        simp [initLocal, hp]
  refine ⟨_, key us _ fun u hu => hass u (List.mem_range.1 (hperm.mem_iff.1 hu)), fun b => ?_⟩
  rw [initLocal_spec, zero_add, weightOf_list, (hperm.map _).sum_eq]

/-- With 65536 or more blocks, constructing a partition with an unassigned node accesses the block weights
out of bounds (the constructor without a partition leaves all nodes unassigned). -/
theorem C17_init_atomic_unassigned (w : Nat → Int) (us : List Nat) (hus : us ≠ []) :
    initAtomic w (fun _ => none) us = none := by
  cases us with
  | nil => exact absurd rfl hus
  | cons u us => rfl

end Verif.Partitioned
