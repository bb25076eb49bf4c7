import Verif.FM.TrackerLemmas
import Mathlib.Data.List.GetD

/-!
# C38: FM workers never own the same node

`Reach p St.init s`: state `s` can be reached in an iteration of the refiner by any interleaving of the workers'
accesses to the tracker and to the counter of the border nodes.
-/

namespace Verif.FM.Tracker
open Verif.FM

/-- The nodes worker `t` works on: those in its queues and those it has taken out in the current batch. -/
def worksOn (s : St) (t u : Nat) : Prop := u ∈ (s.wk t).held ∨ u ∈ (s.wk t).popped

/-- At any time at most one worker works on a node, and the nodes in a queue are marked with the worker's ID. -/
theorem C38_owner (p : Params) (s : St) (h : Reach p St.init s) (t t' u : Nat) (ht : t < p.workers) (ht' : t' < p.workers)
    (hu : worksOn s t u) : (worksOn s t' u → t = t') ∧ s.tr u ≠ unlocked ∧ (u ∈ (s.wk t).held → s.tr u = t + 1) := by
  have hi := reach_inv h
  have mem : ∀ t, t < p.workers → worksOn s t u → u ∈ (s.wk t).pend := by
    intro t ht hu
    rcases hu with h1 | h1
    · exact ((hi.ok t ht).held u h1).1
    · exact ((hi.ok t ht).popped u h1).1
  refine ⟨fun hu' => hi.disj t t' u ht ht' (mem t ht hu) (mem t' ht' hu'), ?_, fun h1 => ((hi.ok t ht).held u h1).2⟩
  intro h0
  rcases (hi.ok t ht).vals u (mem t ht hu) with h1 | h1 | h1
  · rw [h0] at h1; exact (idOf_ne t).2.2 h1.symm
  · rw [h0] at h1; exact absurd h1 (by decide)
  · rw [h0] at h1; exact absurd h1 (by decide)

/-- A node that is marked as moved globally keeps this mark for the rest of the iteration, no worker locks it again and
none has it in a queue. -/
theorem C38_moved (p : Params) (s s' : St) (h : Reach p St.init s) (u : Nat) (hu : s.tr u = movedGlobally)
    (h' : Reach p s s') : s'.tr u = movedGlobally ∧ (∃ l, s'.locks = s.locks ++ l ∧ ∀ t, (t, u) ∉ l) ∧
      ∀ t, t < p.workers → u ∉ (s'.wk t).held := by
  have main : Reach p St.init s' ∧ s'.tr u = movedGlobally ∧ ∃ l, s'.locks = s.locks ++ l ∧ ∀ t, (t, u) ∉ l := by
    induction h' with
    | refl => exact ⟨h, hu, [], (List.append_nil _).symm, fun t hc => absurd hc List.not_mem_nil⟩
    | step _ hs ih =>
      obtain ⟨h1, h2, l, h3, h4⟩ := ih
      obtain ⟨h5, l', h6, h7⟩ := step_marked (reach_inv h1) hs h2
      refine ⟨h1.step hs, h5, l ++ l', by rw [h6, h3, List.append_assoc], ?_⟩
      intro t hc
      rcases List.mem_append.1 hc with hc | hc
      · exact h4 t hc
      · exact h7 _ hc rfl
  obtain ⟨h1, h2, h3⟩ := main
  refine ⟨h2, h3, ?_⟩
  intro t ht hc
  have := (((reach_inv h1).ok t ht).held u hc).2
  rw [h2] at this
  exact (idOf_ne t).2.1 this.symm

/-- Each border node is handed out as seed node at most once in an iteration, if the counter cannot wrap around, and
only border nodes are handed out. -/
theorem C38_seeds (p : Params) (hnd : p.border.Nodup) (hb : p.border.length + p.workers * p.count < 2 ^ p.bits)
    (s : St) (h : Reach p St.init s) : s.handed.Nodup ∧ ∀ u ∈ s.handed, u ∈ p.border := by
  obtain ⟨idx, h1, h2, h3⟩ := (reach_cnt hb h).handed
  rw [h1]
  constructor
  · refine List.Nodup.map_on ?_ h2
    intro i hi j hj he
    have a := (h3 i hi).2.1
    have b := (h3 j hj).2.1
    rw [List.getD_eq_getElem _ _ a, List.getD_eq_getElem _ _ b] at he
    exact (List.Nodup.getElem_inj_iff hnd).1 he
  · intro u hu
    obtain ⟨i, hi, rfl⟩ := List.mem_map.1 hu
    have a := (h3 i hi).2.1
    rw [List.getD_eq_getElem _ _ a]
    exact List.getElem_mem a

/-- When all workers have finished their batches, every node is free or marked as moved globally. -/
theorem C38_released (p : Params) (s : St) (h : Reach p St.init s) (hd : ∀ t, t < p.workers → (s.wk t).pc = .out) (u : Nat) :
    s.tr u = unlocked ∨ s.tr u = movedGlobally := by
  rcases (reach_inv h).own u with h1 | h1 | ⟨t, ht, h1⟩
  · exact Or.inl h1
  · exact Or.inr h1
  · rw [pend_eq (hd t ht)] at h1; exact absurd h1 List.not_mem_nil

/-- Two workers, border nodes 3 and 5. -/
def exP : Params := { workers := 2, count := 1, bits := 32, border := [3, 5], unlockSeeds := true, unlockMoved := true }

/-- One worker has moved node 3 globally while the other one has node 5 in its queue. -/
example : ∃ s, Reach exP St.init s ∧ worksOn s 0 3 ∧ worksOn s 1 5 ∧ s.tr 3 = movedGlobally ∧ s.tr 5 = 2 ∧
    s.locks = [(0, 3), (1, 5)] ∧ s.handed = [3, 5] ∧ exP.border.Nodup ∧
    exP.border.length + exP.workers * exP.count < 2 ^ exP.bits := by
  have r0 := Reach.refl (p := exP) (s := St.init)
  have r1 := r0.step (Step.start _ 0 (by decide) rfl)
  have r2 := r1.step (Step.more _ 0 0 (by decide) rfl (by decide) (by decide))
  have r3 := r2.step (Step.start _ 1 (by decide) rfl)
  have r4 := r3.step (Step.more _ 1 0 (by decide) rfl (by decide) (by decide))
  have r5 := r4.step (Step.take _ 0 0 (by decide) rfl)
  have r6 := r5.step (Step.take _ 1 0 (by decide) rfl)
  have r7 := r6.step (Step.look _ 1 0 1 2 (by decide) rfl (by decide) rfl)
  have r8 := r7.step (Step.look _ 0 0 0 1 (by decide) rfl (by decide) rfl)
  have r9 := r8.step (Step.seed _ 0 0 0 1 (by decide) rfl rfl)
  have r10 := r9.step (Step.seed _ 1 0 1 2 (by decide) rfl rfl)
  have r11 := r10.step (Step.scanned _ 0 1 1 1 (by decide) rfl (by decide))
  have r12 := r11.step (Step.enough _ 0 1 (by decide) rfl (by decide))
  have r13 := r12.step (Step.pop _ 0 3 (by decide) rfl (by decide))
  have r14 := r13.step (Step.improve _ 0 [3] (by decide) rfl (by decide))
  have r15 := r14.step (Step.mark _ 0 3 [] (by decide) rfl)
  exact ⟨_, r15, Or.inr (by decide), Or.inl (by decide), by decide, by decide, by decide, by decide, by decide, by decide⟩

/-- The bound on the number of border nodes is needed: the counter wraps around if more workers than there is room for
increase it after all border nodes were handed out, and the border nodes are handed out again. -/
theorem C38_seeds_not_wrapping : ∃ (p : Params) (s : St), p.border.Nodup ∧ p.border.length < 2 ^ p.bits ∧
    Reach p St.init s ∧ ¬ s.handed.Nodup := by
  let p : Params := { workers := 2, count := 1, bits := 1, border := [3], unlockSeeds := true, unlockMoved := true }
  have r0 := Reach.refl (p := p) (s := St.init)
  have r1 := r0.step (Step.start _ 0 (by decide) rfl)
  have r2 := r1.step (Step.more _ 0 0 (by decide) rfl (by decide) (by decide))
  have r3 := r2.step (Step.start _ 1 (by decide) rfl)
  have r4 := r3.step (Step.more _ 1 0 (by decide) rfl (by decide) (by decide))
  have r5 := r4.step (Step.take _ 0 0 (by decide) rfl)
  have r6 := r5.step (Step.take _ 1 0 (by decide) rfl)
  have r7 := r6.step (Step.look _ 0 0 0 1 (by decide) rfl (by decide) rfl)
  have r8 := r7.step (Step.seed _ 0 0 0 1 (by decide) rfl rfl)
  have r9 := r8.step (Step.scanned _ 0 1 1 1 (by decide) rfl (by decide))
  have r10 := r9.step (Step.enough _ 0 1 (by decide) rfl (by decide))
  have r11 := r10.step (Step.stop _ 0 (by decide) rfl)
  have r12 := r11.step (Step.read _ 0 (true, 3) [] (by decide) rfl (Or.inl rfl))
  have r13 := r12.step (Step.unlock _ 0 3 1 0 [] (by decide) rfl rfl)
  have r14 := r13.step (Step.scanned _ 1 0 _ _ (by decide) rfl (by decide))
  have r15 := r14.step (Step.more _ 1 0 (by decide) rfl (by decide) (by decide))
  have r16 := r15.step (Step.take _ 1 0 (by decide) rfl)
  have r17 := r16.step (Step.look _ 1 0 _ _ (by decide) rfl (by decide) (by decide))
  have r18 := r17.step (Step.seed _ 1 0 _ _ (by decide) rfl (by decide))
  exact ⟨p, _, by decide, by decide, r18, by decide⟩

end Verif.FM.Tracker
