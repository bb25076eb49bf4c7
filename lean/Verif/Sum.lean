import Mathlib.Algebra.BigOperators.Group.Finset.Basic
import Mathlib.Algebra.BigOperators.Ring.Finset
import Mathlib.Algebra.Order.BigOperators.Group.Finset
import Mathlib.Algebra.BigOperators.Intervals
import Mathlib.Tactic.Ring
import Mathlib.Tactic.Linarith
import Verif.Util

/-! Lemmas about finite sums used across the development. -/

namespace Verif
open Finset

/-- Changing one value changes the sum by the difference. -/
theorem sum_upd {α : Type} (s : Finset Nat) (F : Nat → α → Int) (f : Nat → α) {a : Nat} (ha : a ∈ s)
    (x : α) : ∑ i ∈ s, F i (upd f a x i) = ∑ i ∈ s, F i (f i) - F a (f a) + F a x := by
  rw [← Finset.add_sum_erase s _ ha, ← Finset.add_sum_erase s (fun i => F i (f i)) ha, upd_same,
    Finset.sum_congr rfl (g := fun i => F i (f i)) fun i hi => by
      rw [upd_ne _ _ (Finset.mem_erase.1 hi).1]]
  ring

end Verif
