import Verif.Dist.ColoredLPFind

/-!
# What holds between two executions of moves
-/

namespace Verif.Dist
open Verif Verif.Math

variable {dist : List Nat} {inp : Nat → Input} {g : Nat → DGraph} {P P' P'' : Nat → Nat} {Wt : Nat → Int} {cfg : LPConfig}
variable {node : Nat → Nat → Nat} {fr ub : Nat → Nat} {s s' s'' : Nat → LPLocal} {bal : Prop}

/-- The state between two executions of moves: all processes agree on the partition `P`, and the moves that are left are good. -/
structure Mid (dist : List Nat) (inp : Nat → Input) (g : Nat → DGraph) (Wt : Nat → Int) (k : Nat) (node : Nat → Nat → Nat)
    (fr ub : Nat → Nat) (P : Nat → Nat) (s : Nat → LPLocal) : Prop where
  agree : Agree dist g Wt k (fun p => (s p).part) (fun p => (s p).weights) P
  blocks : ∀ a, a < globalN dist → P a < k
  next : ∀ p, p < procs dist → ∀ i, fr p ≤ i → i < ub p → (s p).next i = none ∨ (s p).next i = some (P (first dist p + node p i)) ∨
    Good dist inp P k (first dist p + node p i) ((s p).next i) ((s p).gains i)

/-- The sum of the gains that the processes have recorded. -/
def totalGain (dist : List Nat) (s : Nat → LPLocal) : Int := ((List.range (procs dist)).map fun p => (s p).gained).sum

/-- The partition `P'` is not worse than `P`; if `bal` holds, no block becomes too heavy. -/
structure Improves (dist : List Nat) (inp : Nat → Input) (Wt : Nat → Int) (cfg : LPConfig) (bal : Prop) (P : Nat → Nat) (s : Nat → LPLocal)
    (P' : Nat → Nat) (s' : Nat → LPLocal) : Prop where
  gain : cut dist inp P - cut dist inp P' = totalGain dist s' - totalGain dist s
  le : cut dist inp P' ≤ cut dist inp P
  weights : bal → ∀ b, b < cfg.k → blockWeight dist Wt P' b ≤ max (blockWeight dist Wt P b) (cfg.limit b)

/-- Only the given positions, and their nodes, change. -/
structure Frame (dist : List Nat) (node : Nat → Nat → Nat) (fr ub : Nat → Nat) (P : Nat → Nat) (s : Nat → LPLocal)
    (P' : Nat → Nat) (s' : Nat → LPLocal) : Prop where
  part : ∀ a, (∀ p i, p < procs dist → fr p ≤ i → i < ub p → a ≠ first dist p + node p i) → P' a = P a
  next : ∀ p, p < procs dist → ∀ i, ¬ (fr p ≤ i ∧ i < ub p) → (s' p).next i = (s p).next i

theorem Improves.refl (h : ∀ p, p < procs dist → (s' p).gained = (s p).gained) : Improves dist inp Wt cfg bal P s P s' where
  gain := by
    have : totalGain dist s' = totalGain dist s := by
      unfold totalGain
      congr 1
      exact List.map_congr_left fun p hp => h p (List.mem_range.1 hp)
    omega
  le := Int.le_refl _
  weights := fun _ b _ => Int.le_max_left ..

theorem Improves.trans (h : Improves dist inp Wt cfg bal P s P' s') (h' : Improves dist inp Wt cfg bal P' s' P'' s'') :
    Improves dist inp Wt cfg bal P s P'' s'' where
  gain := by have := h.gain; have := h'.gain; omega
  le := Int.le_trans h'.le h.le
  weights := fun hb b hk => by
    have h1 := h.weights hb b hk
    have h2 := h'.weights hb b hk
    omega

theorem Frame.refl (h : ∀ p, p < procs dist → (s' p).next = (s p).next) : Frame dist node fr ub P s P s' where
  part := fun _ _ => rfl
  next := fun p hp i _ => by rw [h p hp]

theorem Frame.trans (h : Frame dist node fr ub P s P' s') (h' : Frame dist node fr ub P' s' P'' s'') : Frame dist node fr ub P s P'' s'' where
  part := fun a ha => (h'.part a ha).trans (h.part a ha)
  next := fun p hp i hi => (h'.next p hp i hi).trans (h.next p hp i hi)

/-- The moves `r` are moves of nodes of the class. -/
def FromClass (dist : List Nat) (node : Nat → Nat → Nat) (fr ub : Nat → Nat) (r : List (Nat × Nat)) : Prop :=
  ∀ m, m ∈ r → ∃ p i, p < procs dist ∧ fr p ≤ i ∧ i < ub p ∧ m.1 = first dist p + node p i

theorem ColorClass.conn_moves (K : ColorClass dist inp node fr ub) {r : List (Nat × Nat)} (hr : FromClass dist node fr ub r) {p i : Nat}
    (hp : p < procs dist) (h1 : fr p ≤ i) (h2 : i < ub p) (b : Nat) :
    conn dist inp (applyMoves P r) (first dist p + node p i) b = conn dist inp P (first dist p + node p i) b := by
  refine conn_apply r P (fun m hm w => ?_) b
  obtain ⟨q, j, hq, h3, h4, h5⟩ := hr m hm
  rw [h5]
  exact K.apart p q hp hq i j h1 h2 h3 h4 w

theorem ColorClass.good_moves (K : ColorClass dist inp node fr ub) {r : List (Nat × Nat)} (hr : FromClass dist node fr ub r) {p i k : Nat}
    (hp : p < procs dist) (h1 : fr p ≤ i) (h2 : i < ub p) {nx : Option Nat} {gn : Int}
    (he : applyMoves P r (first dist p + node p i) = P (first dist p + node p i))
    (h : Good dist inp P k (first dist p + node p i) nx gn) : Good dist inp (applyMoves P r) k (first dist p + node p i) nx gn := by
  obtain ⟨b, h3, h4, h5, h6⟩ := h
  refine ⟨b, h3, h4, ?_, h6⟩
  rw [K.conn_moves hr hp h1 h2, K.conn_moves hr hp h1 h2, he]
  exact h5

theorem ColorClass.cut_eq (K : ColorClass dist inp node fr ub) (hu : Undirected dist inp) (hl : LoopFree dist inp) {r : List (Nat × Nat)}
    (hr : FromClass dist node fr ub r) (hn : (r.map (·.1)).Nodup) :
    cut dist inp P - cut dist inp (applyMoves P r) = (r.map fun m => conn dist inp P m.1 m.2 - conn dist inp P m.1 (P m.1)).sum := by
  refine cut_moves hu hl r P hn fun m m' hm hm' w => ?_
  obtain ⟨p, i, hp, h1, h2, h3⟩ := hr m hm
  obtain ⟨q, j, hq, h4, h5, h6⟩ := hr m' hm'
  rw [h3, h6]
  exact K.apart p q hp hq i j h1 h2 h4 h5 w

theorem ColorClass.frame (_ : ColorClass dist inp node fr ub) {r : List (Nat × Nat)} (hr : FromClass dist node fr ub r) {a : Nat}
    (ha : ∀ p i, p < procs dist → fr p ≤ i → i < ub p → a ≠ first dist p + node p i) : applyMoves P r a = P a := by
  refine applyMoves_other r P fun h => ?_
  obtain ⟨m, hm, rfl⟩ := List.mem_map.1 h
  obtain ⟨p, i, hp, h1, h2, h3⟩ := hr m hm
  exact ha p i hp h1 h2 h3

theorem applyMoves_lt {k : Nat} : ∀ (r : List (Nat × Nat)) (P : Nat → Nat) {n : Nat}, (∀ a, a < n → P a < k) → (∀ m, m ∈ r → m.2 < k) →
    ∀ a, a < n → applyMoves P r a < k
  | [], _, _, h, _, a, ha => h a ha
  | m :: r, P, n, h, hr, a, ha => by
    refine applyMoves_lt r (upd P m.1 m.2) (n := n) (fun a ha => ?_) (fun m' hm => hr m' (List.mem_cons_of_mem _ hm)) a ha
    unfold upd
    by_cases he : a = m.1
    · rw [if_pos he]; exact hr m List.mem_cons_self
    · rw [if_neg he]; exact h a ha

/-- Two nodes of the class are the same only if their positions are. -/
theorem ColorClass.same (K : ColorClass dist inp node fr ub) (W : World dist inp g) {p q i j : Nat} (hp : p < procs dist)
    (hq : q < procs dist) (h1 : fr p ≤ i) (h2 : i < ub p) (h3 : fr q ≤ j) (h4 : j < ub q)
    (h : first dist p + node p i = first dist q + node q j) : p = q ∧ i = j := by
  have e1 : p = q := by
    rw [← (W.own_at hp (K.lt p hp i h1 h2)).1, h]
    exact (W.own_at hq (K.lt q hq j h3 h4)).1
  subst e1
  exact ⟨rfl, K.inj p hp i j h1 h2 h3 h4 (by omega)⟩

end Verif.Dist
