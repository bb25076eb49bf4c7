import Verif.Dist.ShiftLevel
import Verif.Dist.ContractMap

/-!
# Lemmas: the new places of coarse nodes
-/

namespace Verif.Dist
open Verif.Math

/-- Prefix sums. -/
def psum (f : Nat → Nat) (k : Nat) : Nat := ((List.range k).map f).sum

theorem psum_succ (f : Nat → Nat) (k : Nat) : psum f (k + 1) = psum f k + f k := by
  unfold psum
  rw [List.range_succ, List.map_append, List.sum_append, List.map_singleton, List.sum_singleton]

theorem psum_mono (f : Nat → Nat) {i j : Nat} (h : i ≤ j) : psum f i ≤ psum f j := by
  induction j with
  | zero => rw [Nat.le_zero.1 h]
  | succ j ih =>
    rw [psum_succ]
    rcases Nat.lt_or_ge i (j + 1) with h' | h'
    · have := ih (by omega); omega
    · rw [show i = j + 1 by omega, psum_succ]

theorem psum_owner {f : Nat → Nat} {x : Nat} : ∀ k, x < psum f k → ∃ u, u < k ∧ psum f u ≤ x ∧ x < psum f (u + 1)
  | 0, h => by unfold psum at h; simp at h
  | k + 1, h => by
    rcases Nat.lt_or_ge x (psum f k) with h' | h'
    · obtain ⟨u, h1, h2⟩ := psum_owner k h'
      exact ⟨u, by omega, h2⟩
    · exact ⟨k, by omega, h', h⟩

theorem psum_unique {f : Nat → Nat} {x p q : Nat} (h1 : psum f p ≤ x) (h2 : x < psum f (p + 1)) (h3 : psum f q ≤ x) (h4 : x < psum f (q + 1)) : p = q := by
  rcases Nat.lt_trichotomy p q with h | h | h
  · have := psum_mono f (show p + 1 ≤ q from h); omega
  · exact h
  · have := psum_mono f (show q + 1 ≤ p from h); omega

theorem edgeDistribution_psum {N : Nat} (f : Nat → Nat) {i : Nat} (hi : i ≤ N) :
    (edgeDistribution ((List.range N).map f))[i]? = some (psum f i) := by
  rw [(C64_edge_distribution _ i (by rw [List.length_map, List.length_range]; exact hi)).1, ← List.map_take, List.take_range, Nat.min_eq_left hi]
  rfl

section
variable {dist cdist : List Nat} {lim : Nat} {out inc : Nat → Nat} (hp : procs cdist = procs dist)
  (hm : ∀ q, q < procs cdist → first cdist q ≤ first cdist (q + 1)) (hM : Plan dist cdist lim out inc)

/-- Coarse node `l` of process `q` becomes coarse node `l'` of process `q'`. -/
def Placed (cnt out inc : Nat → Nat) (fst : Bool) (q l q' l' : Nat) : Prop :=
  (q' = q ∧ l' < cnt q - out q ∧ l = if fst then out q + l' else l') ∨
  ∃ j, j < out q ∧ (l = if fst then j else cnt q - out q + j) ∧ psum inc q' ≤ psum out q + j ∧ psum out q + j < psum inc (q' + 1) ∧
    l' = cnt q' + (psum out q + j - psum inc q')

theorem Placed.inj {cnt : Nat → Nat} {fst : Bool} {q l p k q' l' : Nat} (h1 : Placed cnt out inc fst q l q' l') (h2 : Placed cnt out inc fst p k q' l') :
    q = p ∧ l = k := by
  rcases h1 with ⟨rfl, a2, a3⟩ | ⟨j, a1, a2, a3, a4, a5⟩
  · rcases h2 with ⟨rfl, b2, b3⟩ | ⟨j, b1, b2, b3, b4, b5⟩
    · exact ⟨rfl, by rw [a3, b3]⟩
    · omega
  · rcases h2 with ⟨rfl, b2, b3⟩ | ⟨i, b1, b2, b3, b4, b5⟩
    · omega
    · have e : psum out q + j = psum out p + i := by omega
      have s1 := psum_succ out q
      have s2 := psum_succ out p
      have hqp : q = p := psum_unique (f := out) (x := psum out q + j) (by omega) (by omega) (by omega) (by omega)
      subst hqp
      have : j = i := by omega
      subst this
      exact ⟨rfl, by rw [a2, b2]⟩

include hM in
theorem Placed.lt {fst : Bool} {q l q' l' : Nat} (hq : q' < procs dist) (h : Placed (localN cdist) out inc fst q l q' l') : l' < localN dist q' := by
  have h1 := hM.fits q' hq
  have h2 := psum_succ inc q'
  rcases h with ⟨rfl, a2, a3⟩ | ⟨j, a1, a2, a3, a4, a5⟩ <;> omega

include hM in
/-- The local IDs that clusters of process `q'` have afterwards. -/
theorem placed_iff {fst : Bool} {q' l' : Nat} (hq : q' < procs dist) :
    (∃ q l, q < procs dist ∧ l < localN cdist q ∧ Placed (localN cdist) out inc fst q l q' l') ↔
      l' < localN cdist q' - out q' ∨ (localN cdist q' ≤ l' ∧ l' < localN cdist q' + inc q') := by
  constructor
  · rintro ⟨q, l, h1, h2, h⟩
    have h4 := psum_succ inc q'
    rcases h with ⟨rfl, a2, a3⟩ | ⟨j, a1, a2, a3, a4, a5⟩ <;> omega
  · rintro (h | ⟨h1, h2⟩)
    · refine ⟨q', if fst then out q' + l' else l', hq, ?_, Or.inl ⟨rfl, h, rfl⟩⟩
      split <;> omega
    · have h3 := psum_succ inc q'
      have h4 : psum inc (q' + 1) ≤ psum inc (procs dist) := psum_mono inc hq
      have h5 : psum out (procs dist) = psum inc (procs dist) := hM.total
      obtain ⟨q, g1, g2, g3⟩ := psum_owner (f := out) (x := psum inc q' + (l' - localN cdist q')) (procs dist) (by omega)
      have g4 := psum_succ out q
      have g5 := hM.out_eq q g1
      refine ⟨q, if fst then psum inc q' + (l' - localN cdist q') - psum out q else localN cdist q - out q + (psum inc q' + (l' - localN cdist q') - psum out q),
        g1, ?_, Or.inr ⟨psum inc q' + (l' - localN cdist q') - psum out q, by omega, rfl, by omega, by omega, by omega⟩⟩
      split <;> omega

include hp hm hM in
theorem remap_ok (fst : Bool) {q l : Nat} (hq : q < procs dist) (hl : l < localN cdist q) : ∃ q' l', q' < procs dist ∧
    remap? fst cdist (edgeDistribution ((List.range (procs dist)).map out)) (edgeDistribution ((List.range (procs dist)).map inc)) (first cdist q + l) q =
      some (l', q') ∧ Placed (localN cdist) out inc fst q l q' l' := by
  have hget : ∀ i, i ≤ procs dist → cdist[i]? = some (first cdist i) := fun i hi => getD_some (by
    have : procs cdist = cdist.length - 1 := rfl
    omega)
  have hcnt : ∀ p, p < procs dist → first cdist (p + 1) - first cdist p = localN cdist p := fun _ _ => rfl
  have h1 := psum_succ out q
  have hout := hM.out_eq q hq
  have hplace : ∀ j, j < out q → ∃ q', q' < procs dist ∧ place? cdist (edgeDistribution ((List.range (procs dist)).map inc)) (psum out q + j) =
      some (localN cdist q' + (psum out q + j - psum inc q'), q') ∧ psum inc q' ≤ psum out q + j ∧ psum out q + j < psum inc (q' + 1) := by
    intro j hj
    have hlt : psum out q + j < psum inc (procs dist) := by
      have h2 : psum out (q + 1) ≤ psum out (procs dist) := psum_mono out hq
      have h3 : psum out (procs dist) = psum inc (procs dist) := hM.total
      omega
    have hlen : (edgeDistribution ((List.range (procs dist)).map inc)).length = procs dist + 1 := by
      rw [(C64_edge_distribution _ 0 (Nat.zero_le _)).2, List.length_map, List.length_range]
    obtain ⟨lo, hi, f1, f2, f3, f4⟩ := Verif.Math.Props.C01_find_in_distribution (psum out q + j) (edgeDistribution ((List.range (procs dist)).map inc))
      ⟨_, edgeDistribution_psum inc (Nat.zero_le _), by rw [show psum inc 0 = 0 from rfl]; omega⟩
      ⟨_, List.mem_of_getElem? (edgeDistribution_psum inc (Nat.le_refl _)), hlt⟩
    unfold place?
    generalize findInDistribution (psum out q + j) (edgeDistribution ((List.range (procs dist)).map inc)) = q' at f1 f2 ⊢
    have hq' : q' < procs dist := by
      obtain ⟨h, _⟩ := List.getElem?_eq_some_iff.1 f2
      omega
    rw [edgeDistribution_psum inc (by omega)] at f1 f2
    injection f1 with f1
    injection f2 with f2
    subst f1 f2
    refine ⟨q', hq', ?_, f3, f4⟩
    have hs := hm q' (by omega)
    rw [hget q' (by omega), Option.bind_some, hget (q' + 1) (by omega), Option.bind_some, edgeDistribution_psum inc (by omega), Option.bind_some,
      if_pos ⟨hs, f3⟩]
    rfl
  unfold remap?
  rw [hget q (by omega), Option.bind_some, hget (q + 1) (by omega), Option.bind_some, edgeDistribution_psum out (by omega), Option.bind_some,
    edgeDistribution_psum out (by omega), Option.bind_some, hcnt q hq, show psum out (q + 1) - psum out q = out q by omega,
    if_pos ⟨by omega, by omega, by omega⟩, show first cdist q + l - first cdist q = l by omega]
  cases fst with
  | true =>
    rw [if_pos rfl]
    rcases Nat.lt_or_ge l (out q) with h | h
    · rw [if_neg (by omega)]
      obtain ⟨q', g1, g2, g3, g4⟩ := hplace l h
      exact ⟨q', _, g1, g2, Or.inr ⟨l, h, rfl, g3, g4, rfl⟩⟩
    · rw [if_pos h]
      exact ⟨q, _, hq, rfl, Or.inl ⟨rfl, by omega, by rw [if_pos rfl]; omega⟩⟩
  | false =>
    rw [if_neg (by simp)]
    rcases Nat.lt_or_ge l (localN cdist q - out q) with h | h
    · rw [if_pos h]
      exact ⟨q, _, hq, rfl, Or.inl ⟨rfl, h, by rw [if_neg (by simp)]⟩⟩
    · rw [if_neg (by omega), show psum out q + l - (localN cdist q - out q) = psum out q + (l - (localN cdist q - out q)) by omega]
      obtain ⟨q', g1, g2, g3, g4⟩ := hplace (l - (localN cdist q - out q)) (by omega)
      exact ⟨q', _, g1, g2, Or.inr ⟨l - (localN cdist q - out q), by omega, by rw [if_neg (by simp)]; omega, g3, g4, rfl⟩⟩

end

theorem countP_gap {a b c : Nat} (h1 : a ≤ b) (h2 : b ≤ c) : ∀ n, (List.range n).countP (fun j => decide (j < a ∨ (b ≤ j ∧ j < c))) = min n a + (min n c - b)
  | 0 => by simp
  | n + 1 => by
    rw [List.range_succ, List.countP_append, countP_gap h1 h2 n, List.countP_cons, List.countP_nil]
    by_cases h : n < a ∨ (b ≤ n ∧ n < c)
    · rw [if_pos (decide_eq_true h)]; omega
    · rw [if_neg (by simpa using h)]; omega

end Verif.Dist
