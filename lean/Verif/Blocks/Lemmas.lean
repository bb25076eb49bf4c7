import Verif.Blocks.Model
import Verif.Math.Lemmas

namespace Verif.Blocks
open Verif.Math

/-! ### Bit reversal -/

/-- reversal of the lowest `l` bits -/
def rev : Nat → Nat → Nat
  | 0, _ => 0
  | l + 1, b => (b % 2) * 2 ^ l + rev l (b / 2)

theorem rev_lt (l b : Nat) : rev l b < 2 ^ l := by
  induction l generalizing b with
  | zero => simp [rev]
  | succ l ih =>
    have := ih (b / 2)
    have h2 : b % 2 < 2 := Nat.mod_lt _ (by omega)
    have h3 : b % 2 = 0 ∨ b % 2 = 1 := by omega
    simp only [rev, Nat.pow_succ]
    rcases h3 with h | h <;> rw [h] <;> omega

theorem rev_testBit (l b i : Nat) (hi : i < l) : (rev l b).testBit i = b.testBit (l - 1 - i) := by
  induction l generalizing b with
  | zero => omega
  | succ l ih =>
    simp only [rev]
    rw [Nat.mul_comm, Nat.testBit_two_pow_mul_add _ (rev_lt l (b / 2))]
    split
    · rename_i h
      rw [ih _ h, Nat.testBit_div_two]
      congr 1; omega
    · rename_i h
      have : i = l := by omega
      subst this
      rw [Nat.sub_self]
      have h3 : b % 2 = 0 ∨ b % 2 = 1 := by omega
      rcases h3 with h | h <;> simp [h, Nat.testBit_zero]

theorem lut_testBit : ∀ x, x < 16 → ∀ j, j < 4 → (lut x).testBit j = x.testBit (3 - j) := by decide

theorem lut_lt : ∀ x, x < 16 → lut x < 16 := by decide

theorem nib_eq (b s : Nat) : (b &&& (15 <<< s)) >>> s = (b >>> s) % 16 := by
  apply Nat.eq_of_testBit_eq
  intro i
  rw [Nat.testBit_shiftRight, Nat.testBit_and, Nat.testBit_shiftLeft,
    show (16 : Nat) = 2 ^ 4 from rfl, Nat.testBit_mod_two_pow, Nat.testBit_shiftRight]
  have h15 : (15 : Nat).testBit i = decide (i < 4) := by
    rw [show (15 : Nat) = 2 ^ 4 - 1 from rfl, Nat.testBit_two_pow_sub_one]
  simp [h15, Bool.and_comm]

/-- one nibble of the reversal -/
theorem nib_testBit (b s t i : Nat) :
    ((lut ((b >>> s) % 16)) <<< t).testBit i
      = (decide (t ≤ i) && decide (i < t + 4) && b.testBit (s + (3 - (i - t)))) := by
  rw [Nat.testBit_shiftLeft]
  by_cases h1 : t ≤ i
  · by_cases h2 : i < t + 4
    · rw [lut_testBit _ (Nat.mod_lt _ (by omega)) _ (by omega),
        show (16 : Nat) = 2 ^ 4 from rfl, Nat.testBit_mod_two_pow, Nat.testBit_shiftRight]
      have : 3 - (i - t) < 4 := by omega
      simp [h1, h2, this]
    · have : (lut ((b >>> s) % 16)).testBit (i - t) = false := by
        apply Nat.testBit_lt_two_pow
        have := lut_lt _ (Nat.mod_lt (b >>> s) (show 0 < 16 by omega))
        have h16 : (16 : Nat) ≤ 2 ^ (i - t) := by
          rw [show (16 : Nat) = 2 ^ 4 from rfl]
          exact Nat.pow_le_pow_right (by omega) (by omega)
        omega
      simp [this, h2]
  · simp [h1]

theorem reverse32_eq (b : Nat) : reverse32 b =
    (lut ((b >>> 28) % 16) <<< 0) ||| (lut ((b >>> 24) % 16) <<< 4) ||| (lut ((b >>> 20) % 16) <<< 8) |||
    (lut ((b >>> 16) % 16) <<< 12) ||| (lut ((b >>> 12) % 16) <<< 16) ||| (lut ((b >>> 8) % 16) <<< 20) |||
    (lut ((b >>> 4) % 16) <<< 24) ||| (lut ((b >>> 0) % 16) <<< 28) := by
  unfold reverse32
  rw [← nib_eq b 28, ← nib_eq b 24, ← nib_eq b 20, ← nib_eq b 16, ← nib_eq b 12, ← nib_eq b 8,
    ← nib_eq b 4, ← nib_eq b 0]
  rfl

theorem reverse32_testBit (b i : Nat) :
    (reverse32 b).testBit i = (decide (i < 32) && b.testBit (31 - i)) := by
  rw [reverse32_eq]
  simp only [Nat.testBit_or, nib_testBit]
  by_cases h : i < 32
  · have hc : (i < 4) ∨ (4 ≤ i ∧ i < 8) ∨ (8 ≤ i ∧ i < 12) ∨ (12 ≤ i ∧ i < 16) ∨ (16 ≤ i ∧ i < 20) ∨
      (20 ≤ i ∧ i < 24) ∨ (24 ≤ i ∧ i < 28) ∨ (28 ≤ i ∧ i < 32) := by omega
    have key : ∀ t, t % 4 = 0 → t ≤ 28 → t ≤ i → i < t + 4 → (28 - t) + (3 - (i - t)) = 31 - i := by
      intros; omega
    rcases hc with h' | h' | h' | h' | h' | h' | h' | h'
    · simp (config := {decide := false}) [h', h, show 28 + (3 - i) = 31 - i by omega,
        show ¬ 4 ≤ i by omega, show ¬ 8 ≤ i by omega, show ¬ 12 ≤ i by omega, show ¬ 16 ≤ i by omega,
        show ¬ 20 ≤ i by omega, show ¬ 24 ≤ i by omega, show ¬ 28 ≤ i by omega]
    · simp [h', h, show 24 + (3 - (i - 4)) = 31 - i by omega, show ¬ i < 4 by omega,
        show ¬ 8 ≤ i by omega, show ¬ 12 ≤ i by omega, show ¬ 16 ≤ i by omega,
        show ¬ 20 ≤ i by omega, show ¬ 24 ≤ i by omega, show ¬ 28 ≤ i by omega]
    · simp [h', h, show 20 + (3 - (i - 8)) = 31 - i by omega, show ¬ i < 4 by omega,
        show ¬ i < 8 by omega, show ¬ 12 ≤ i by omega, show ¬ 16 ≤ i by omega,
        show ¬ 20 ≤ i by omega, show ¬ 24 ≤ i by omega, show ¬ 28 ≤ i by omega]
    · simp [h', h, show 16 + (3 - (i - 12)) = 31 - i by omega, show ¬ i < 4 by omega,
        show ¬ i < 8 by omega, show ¬ i < 12 by omega, show ¬ 16 ≤ i by omega,
        show ¬ 20 ≤ i by omega, show ¬ 24 ≤ i by omega, show ¬ 28 ≤ i by omega]
    · simp [h', h, show 12 + (3 - (i - 16)) = 31 - i by omega, show ¬ i < 4 by omega,
        show ¬ i < 8 by omega, show ¬ i < 12 by omega, show ¬ i < 16 by omega,
        show ¬ 20 ≤ i by omega, show ¬ 24 ≤ i by omega, show ¬ 28 ≤ i by omega]
    · simp [h', h, show 8 + (3 - (i - 20)) = 31 - i by omega, show ¬ i < 4 by omega,
        show ¬ i < 8 by omega, show ¬ i < 12 by omega, show ¬ i < 16 by omega,
        show ¬ i < 20 by omega, show ¬ 24 ≤ i by omega, show ¬ 28 ≤ i by omega]
    · simp [h', h, show 4 + (3 - (i - 24)) = 31 - i by omega, show ¬ i < 4 by omega,
        show ¬ i < 8 by omega, show ¬ i < 12 by omega, show ¬ i < 16 by omega,
        show ¬ i < 20 by omega, show ¬ i < 24 by omega, show ¬ 28 ≤ i by omega]
    · simp [h', show (3 - (i - 28)) = 31 - i by omega, show ¬ i < 4 by omega,
        show ¬ i < 8 by omega, show ¬ i < 12 by omega, show ¬ i < 16 by omega,
        show ¬ i < 20 by omega, show ¬ i < 24 by omega, show ¬ i < 28 by omega]
  · simp [h, show ¬ i < 4 by omega,
        show ¬ i < 8 by omega, show ¬ i < 12 by omega, show ¬ i < 16 by omega,
        show ¬ i < 20 by omega, show ¬ i < 24 by omega, show ¬ i < 28 by omega]

/-- the shifted 32-bit reversal is the reversal of the lowest `l` bits -/
theorem reverse32_shift (l b : Nat) (hl : l ≤ 32) :
    reverse32 b >>> (32 - l) = rev l b := by
  apply Nat.eq_of_testBit_eq
  intro i
  rw [Nat.testBit_shiftRight, reverse32_testBit]
  by_cases hi : i < l
  · rw [rev_testBit _ _ _ hi]
    have h1 : 32 - l + i < 32 := by omega
    simp only [h1, decide_true, Bool.true_and]
    congr 1; omega
  · have h1 : ¬ (32 - l + i < 32) := by omega
    simp only [h1, decide_false, Bool.false_and]
    symm
    apply Nat.testBit_lt_two_pow
    exact Nat.lt_of_lt_of_le (rev_lt l b) (Nat.pow_le_pow_right (by omega) (by omega))

/-! ### The label tree -/

/-- number of final blocks below block `b` of level `l`: the left child gets the larger half -/
def treeLabel (k : Nat) : Nat → Nat → Nat
  | 0, _ => k
  | l + 1, b => if b % 2 = 0 then (treeLabel k l (b / 2) + 1) / 2 else treeLabel k l (b / 2) / 2

/-- `f 0 + … + f (n-1)` -/
def sumTo (f : Nat → Nat) : Nat → Nat
  | 0 => 0
  | n + 1 => sumTo f n + f n

theorem treeLabel_eq (k l b : Nat) (hb : b < 2 ^ l) :
    treeLabel k l b = k / 2 ^ l + (if rev l b < k % 2 ^ l then 1 else 0) := by
  induction l generalizing b with
  | zero => simp [treeLabel, rev, Nat.mod_one]
  | succ l ih =>
    have hq : b / 2 < 2 ^ l := by rw [Nat.pow_succ] at hb; omega
    have hB : k / 2 ^ (l + 1) = k / 2 ^ l / 2 := by rw [Nat.pow_succ, Nat.div_div_eq_div_mul]
    have hR : k % 2 ^ (l + 1) = k % 2 ^ l + 2 ^ l * (k / 2 ^ l % 2) := by
      rw [Nat.pow_succ, Nat.mod_mul]
    have hr := rev_lt l (b / 2)
    have hm : k % 2 ^ l < 2 ^ l := Nat.mod_lt _ (Nat.two_pow_pos l)
    simp only [treeLabel, rev, ih _ hq, hB, hR]
    generalize k / 2 ^ l = B at *
    generalize k % 2 ^ l = R at *
    generalize rev l (b / 2) = v at *
    generalize 2 ^ l = P at *
    have hp2 : B % 2 = 0 ∨ B % 2 = 1 := by omega
    have hb2 : b % 2 = 0 ∨ b % 2 = 1 := by omega
    rcases hp2 with h | h <;> rcases hb2 with h' | h' <;> simp only [h, h'] <;>
      by_cases hvr : v < R <;> simp only [hvr, if_true, if_false] <;> simp <;>
      (try split) <;> omega

theorem sumTo_double (k l n : Nat) :
    sumTo (treeLabel k (l + 1)) (2 * n) = sumTo (treeLabel k l) n := by
  induction n with
  | zero => rfl
  | succ n ih =>
    rw [show 2 * (n + 1) = 2 * n + 1 + 1 by omega]
    simp only [sumTo, ih]
    simp only [treeLabel]
    have h1 : (2 * n) / 2 = n := by omega
    have h2 : (2 * n + 1) / 2 = n := by omega
    have h3 : (2 * n) % 2 = 0 := by omega
    have h4 : (2 * n + 1) % 2 ≠ 0 := by omega
    rw [if_pos h3, if_neg h4, h1, h2]; omega

theorem sumTo_total (k l : Nat) : sumTo (treeLabel k l) (2 ^ l) = k := by
  induction l with
  | zero => simp [sumTo, treeLabel]
  | succ l ih => rw [Nat.pow_succ, Nat.mul_comm, sumTo_double, ih]

theorem sumTo_bit (k l q : Nat) : sumTo (treeLabel k (l + 1)) (2 * q + 1) =
    sumTo (treeLabel k l) q + (treeLabel k l q + 1) / 2 := by
  simp only [sumTo, sumTo_double]
  simp only [treeLabel]
  rw [if_pos (by omega), show 2 * q / 2 = q by omega]

theorem shiftRight_step (b m : Nat) :
    b >>> m = 2 * (b >>> (m + 1)) + (if b.testBit m then 1 else 0) := by
  rw [Nat.shiftRight_succ, Nat.testBit_eq_decide_div_mod_eq, Nat.shiftRight_eq_div_pow]
  simp only [decide_eq_true_eq]
  split <;> omega

theorem and_two_pow_ne (b m : Nat) : (b &&& 2 ^ m ≠ 0) ↔ b.testBit m = true := by
  constructor
  · intro h
    cases hb : b.testBit m
    · exfalso; apply h
      apply Nat.eq_of_testBit_eq
      intro i
      rw [Nat.testBit_and, Nat.testBit_two_pow]
      by_cases him : m = i
      · subst him; simp [hb]
      · simp [him]
    · rfl
  · intro hb h
    have := congrArg (fun x => x.testBit m) h
    simp [Nat.testBit_and, hb] at this

/-- mask after `j` iterations -/
def maskAt (l j : Nat) : Nat := if j < l then 2 ^ (l - 1 - j) else 0

theorem maskAt_shift (l j : Nat) : maskAt l j >>> 1 = maskAt l (j + 1) := by
  unfold maskAt
  by_cases h : j + 1 < l
  · rw [if_pos (by omega), if_pos h, Nat.shiftRight_eq_div_pow]
    have : l - 1 - j = (l - 1 - (j + 1)) + 1 := by omega
    rw [this, Nat.pow_succ]; omega
  · rw [if_neg h]
    by_cases h' : j < l
    · rw [if_pos h', show l - 1 - j = 0 by omega]; rfl
    · rw [if_neg h']; rfl

theorem firstSubLoop_eq (k l b : Nat) (hl : l < 31) (d : Nat) :
    ∀ j fuel, j + d = l → d + 2 ≤ fuel →
    firstSubLoop b (2 ^ l) fuel (2 ^ j) (maskAt l j) (treeLabel k j (b >>> d))
      (sumTo (treeLabel k j) (b >>> d)) = some (sumTo (treeLabel k l) b) := by
  induction d with
  | zero =>
    intro j fuel hj hf
    obtain ⟨f, rfl⟩ : ∃ f, fuel = f + 2 := ⟨fuel - 2, by omega⟩
    have : j = l := by omega
    subst this
    have hlt : (2 : Nat) ^ (j + 1) < 2 ^ 32 := Nat.pow_lt_pow_right (by omega) (by omega)
    have hw : 2 ^ j * 2 % 2 ^ 32 = 2 ^ (j + 1) := by
      rw [← Nat.pow_succ]; exact Nat.mod_eq_of_lt hlt
    have hgt : ¬ (2 ^ (j + 1) ≤ 2 ^ j) := by
      have := Nat.pow_lt_pow_right (a := 2) (by omega) (show j < j + 1 by omega); omega
    simp [firstSubLoop, hw, hgt, maskAt]
  | succ d ih =>
    intro j fuel hj hf
    obtain ⟨f, rfl⟩ : ∃ f, fuel = f + 1 := ⟨fuel - 1, by omega⟩
    have hlt : (2 : Nat) ^ (j + 1) < 2 ^ 32 := Nat.pow_lt_pow_right (by omega) (by omega)
    have hw : 2 ^ j * 2 % 2 ^ 32 = 2 ^ (j + 1) := by
      rw [← Nat.pow_succ]; exact Nat.mod_eq_of_lt hlt
    have hle : (2 : Nat) ^ j ≤ 2 ^ l := Nat.pow_le_pow_right (by omega) (by omega)
    have hmask : maskAt l j = 2 ^ d := by
      unfold maskAt; rw [if_pos (by omega)]; congr 1; omega
    have hstep := shiftRight_step b d
    rw [firstSubLoop, if_pos hle, maskAt_shift]
    simp only [hw, splitIntegral]
    have ih' := ih (j + 1) f (by omega) (by omega)
    rw [hmask]
    by_cases hbit : b.testBit d = true
    · rw [if_pos ((and_two_pow_ne b d).2 hbit)]
      rw [if_pos hbit] at hstep
      rw [hstep, sumTo_bit, treeLabel, if_neg (by omega),
        show (2 * (b >>> (d + 1)) + 1) / 2 = b >>> (d + 1) by omega] at ih'
      exact ih'
    · rw [if_neg (fun h => hbit ((and_two_pow_ne b d).1 h))]
      rw [if_neg hbit, Nat.add_zero] at hstep
      rw [hstep, sumTo_double, treeLabel, if_pos (by omega),
        show (2 * (b >>> (d + 1))) / 2 = b >>> (d + 1) by omega] at ih'
      exact ih'

theorem firstSubBlock_eq (k l b : Nat) (hl : l < 31) (hb : b < 2 ^ l) :
    firstSubBlock? b (2 ^ l) k = some (sumTo (treeLabel k l) b) := by
  unfold firstSubBlock?
  by_cases h0 : l = 0
  · subst h0
    have : b = 0 := by simpa using hb
    subst this; simp [sumTo]
  · have h1 : (2 : Nat) ^ l ≠ 1 := by
      have := Nat.pow_lt_pow_right (a := 2) (by omega) (show 0 < l by omega); omega
    rw [if_neg h1, ceilLog2_pow (by omega)]
    have h := firstSubLoop_eq k l b hl l 0 40 (by omega) (by omega)
    have hsh : b >>> l = 0 := by rw [Nat.shiftRight_eq_div_pow]; exact Nat.div_eq_of_lt hb
    have hmask : maskAt l 0 = 2 ^ (l - 1) := by unfold maskAt; rw [if_pos (by omega)]; rfl
    rw [hsh, hmask] at h
    simpa [sumTo, treeLabel] using h

theorem finalK_eq (k l b : Nat) (hl : l < 31) (hl0 : 0 < l) (hk : 2 ^ l ≤ k) (hb : b < 2 ^ l) :
    finalK? b (2 ^ l) k = some (treeLabel k l b) := by
  unfold finalK?
  rw [treeLabel_eq k l b hb]
  by_cases h : 2 ^ l = k
  · rw [if_pos h]
    subst h
    rw [Nat.div_self (Nat.two_pow_pos l), Nat.mod_self]; simp
  · have hlog : floorLog2? 32 (2 ^ l) = some l := by
      rw [floorLog2_eq (by have := Nat.two_pow_pos l; omega)
        (Nat.pow_lt_pow_right (by omega) (by omega)), Nat.log2_two_pow]
    rw [if_neg h, hlog]
    simp only [Option.bind_eq_bind, Option.bind_some]
    rw [if_neg (by omega), reverse32_shift l b (by omega), Nat.shiftRight_eq_div_pow,
      Nat.and_two_pow_sub_one_eq_mod]

end Verif.Blocks
