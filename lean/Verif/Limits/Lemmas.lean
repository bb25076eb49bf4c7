import Verif.Limits.Spec
import Verif.Metrics.Props
import Verif.Subgraph.Props
import Verif.Blocks.Props
import Mathlib.Tactic.Linarith
import Mathlib.Tactic.Positivity
import Mathlib.Tactic.FieldSimp

namespace Verif.Limits
open Verif.Math Verif.Blocks Verif.Subgraph Verif.Metrics Finset

theorem sumTo_mono (f : Nat → Nat) {a b : Nat} (h : a ≤ b) : sumTo f a ≤ sumTo f b := by
  induction h with
  | refl => exact Nat.le_refl _
  | step _ ih => exact Nat.le_trans ih (by rw [sumTo]; omega)

theorem finalRange_eq (k : Nat) : ∀ (l b : Nat),
    b < 2 ^ l → finalRange k l b = (sumTo (treeLabel k l) b, sumTo (treeLabel k l) b + treeLabel k l b)
  | 0, b, h => by
    have : b = 0 := by simpa using h
    subst this
    simp [finalRange, sumTo, treeLabel]
  | l + 1, b, h => by
    rw [Nat.pow_succ] at h
    have ih := finalRange_eq k l (b / 2) (by omega)
    unfold finalRange
    simp only [ih]
    rw [Nat.add_sub_cancel_left]
    by_cases hb : b % 2 = 0
    · obtain ⟨q, rfl⟩ : ∃ q, b = 2 * q := ⟨b / 2, by omega⟩
      rw [if_pos hb, sumTo_double, treeLabel, if_pos hb, show 2 * q / 2 = q by omega]
    · obtain ⟨q, rfl⟩ : ∃ q, b = 2 * q + 1 := ⟨b / 2, by omega⟩
      rw [if_neg hb, sumTo_bit, treeLabel, if_neg hb, show (2 * q + 1) / 2 = q by omega]
      congr 1
      omega

theorem slice_eq {l : List Int} {b e : Nat} (h1 : b ≤ e) (h2 : e ≤ l.length) :
    slice? l b e = some (sumRange (fun f => l.getD f 0) (b, e)) := by
  unfold slice? sumRange
  rw [if_pos ⟨h1, h2⟩]
  congr 1
  show _ = ∑ f ∈ Ico b e, l.getD f 0
  obtain ⟨d, rfl⟩ : ∃ d, e = b + d := ⟨e - b, by omega⟩
  rw [Nat.add_sub_cancel_left, Finset.sum_Ico_eq_sum_range, Nat.add_sub_cancel_left]
  clear h1
  induction d with
  | zero => simp
  | succ d ih =>
    rw [Finset.sum_range_succ, ← ih (by omega), List.take_add_one]
    have : (l.drop b)[d]? = some (l.getD (b + d) 0) := by
      rw [List.getElem?_drop, List.getElem?_eq_getElem (by omega), List.getD_eq_getElem?_getD,
        List.getElem?_eq_getElem (by omega)]
      rfl
    rw [this]
    simp

/-- The loop over the blocks from `b` on. -/
theorem kwayLoop_eq {rd : ℚ → ℚ} {input : PCtx} {l : Nat} (hl0 : 0 < l) (hl : l < 31) (hk : 2 ^ l ≤ input.k)
    {F : Nat × Nat → Int}
    (hF : ∀ b, b < 2 ^ l → input.totalUnrelaxed? rd (finalRange input.k l b).1 (finalRange input.k l b).2 =
      some (F (finalRange input.k l b))) (n : Nat) :
    ∀ b, b + n = 2 ^ l → kwayLoop? rd input (2 ^ l) (List.range' b n) (sumTo (treeLabel input.k l) b) =
      some ((List.range' b n).map fun b => F (finalRange input.k l b)) := by
  induction n with
  | zero => intro b _; rfl
  | succ n ih =>
    intro b hb
    rw [List.range'_succ, kwayLoop?, finalK_eq input.k l b hl hl0 hk (by omega)]
    have h1 := hF b (by omega)
    have h2 := finalRange_eq input.k l b (by omega)
    have h3 := ih (b + 1) (by omega)
    rw [sumTo] at h3
    simp only [Option.bind_eq_bind, Option.bind_some, h3]
    rw [h2] at h1
    simp only at h1
    simp only [h1, Option.bind_some, List.map_cons, h2]

/-- With as many blocks as in the end, block `b` is the final block `b`. -/
theorem kwayLoop_top {rd : ℚ → ℚ} {input : PCtx} {F : Nat → Int}
    (hF : ∀ b, b < input.k → input.totalUnrelaxed? rd b (b + 1) = some (F b)) (n : Nat) :
    ∀ b, b + n = input.k → kwayLoop? rd input input.k (List.range' b n) b = some ((List.range' b n).map F) := by
  induction n with
  | zero => intro b _; rfl
  | succ n ih =>
    intro b hb
    rw [List.range'_succ, kwayLoop?]
    have h1 : finalK? b input.k input.k = some 1 := by simp [finalK?]
    simp only [h1, Option.bind_eq_bind, Option.bind_some, ih (b + 1) (by omega), hF b (by omega), List.map_cons]

/-! ## Rounding -/

section
variable {rd : ℚ → ℚ} (h : DoubleRounding rd)
include h

theorem DoubleRounding.lower {x : ℚ} (hx : 0 ≤ x) : x * (1 - 1 / 2 ^ 53) ≤ rd x := by
  have h1 := h.rel x
  rw [abs_of_nonneg hx] at h1
  have h2 := neg_le_of_abs_le h1
  nlinarith

theorem DoubleRounding.upper {x : ℚ} (hx : 0 ≤ x) : rd x ≤ x * (1 + 1 / 2 ^ 53) := by
  have h1 := h.rel x
  rw [abs_of_nonneg hx] at h1
  have h2 := le_of_abs_le h1
  nlinarith

theorem DoubleRounding.nonneg {x : ℚ} (hx : 0 ≤ x) : 0 ≤ rd x :=
  le_trans (mul_nonneg hx (by norm_num)) (h.lower hx)

theorem DoubleRounding.pos {x : ℚ} (hx : 0 < x) : 0 < rd x :=
  lt_of_lt_of_le (mul_pos hx (by norm_num)) (h.lower hx.le)

/-- The relaxed limits: the computed `1 + inferred_epsilon()` and the share of a limit. -/
theorem relax_share {S W : Int} (hW : 0 < W) (hS : 0 < S) (hW2 : W ≤ 2 ^ 49) (hWS : W ≤ 2 * S) :
    let r := rd (rd S / rd W)
    let D := rd (1 + rd (r - 1))
    rd (W : ℚ) ≠ 0 ∧ 0 < D ∧ ∀ x : Int, 0 ≤ x → (x : ℚ) * (W / S) * (1 - 15 / 2 ^ 53) ≤ rd (rd x / D) := by
  have hWq : (0 : ℚ) < W := by exact_mod_cast hW
  have hSq : (0 : ℚ) < S := by exact_mod_cast hS
  have hWSq : (W : ℚ) ≤ 2 * S := by exact_mod_cast hWS
  have hrW : rd (W : ℚ) = W := h.toRounding.int (by rw [abs_of_pos hW]; omega)
  intro r D
  have hSW : (0 : ℚ) < S / W := div_pos hSq hWq
  have hSW2 : (1 / 2 : ℚ) ≤ S / W := by rw [le_div_iff₀ hWq]; linarith
  have hq0 : 0 ≤ rd S / rd W := by rw [hrW]; exact div_nonneg (h.nonneg hSq.le) hWq.le
  have hql : S / W * (1 - 1 / 2 ^ 53) ≤ rd (S : ℚ) / rd W := by
    rw [hrW, div_mul_eq_mul_div, div_le_div_iff_of_pos_right hWq]
    exact h.lower hSq.le
  have hqu : rd (S : ℚ) / rd W ≤ S / W * (1 + 1 / 2 ^ 53) := by
    rw [hrW, div_mul_eq_mul_div, div_le_div_iff_of_pos_right hWq]
    exact h.upper hSq.le
  have hrl : S / W * (1 - 1 / 2 ^ 53) * (1 - 1 / 2 ^ 53) ≤ r :=
    le_trans (mul_le_mul_of_nonneg_right hql (by norm_num)) (h.lower hq0)
  have hru : r ≤ S / W * (1 + 1 / 2 ^ 53) * (1 + 1 / 2 ^ 53) :=
    le_trans (h.upper hq0) (mul_le_mul_of_nonneg_right hqu (by norm_num))
  generalize hz : (S : ℚ) / W = z at *
  have hr4 : (1 / 4 : ℚ) ≤ r := by
    refine le_trans ?_ hrl
    nlinarith
  have habs : |r - 1| ≤ 4 * r := by
    rw [abs_le]
    constructor <;> linarith
  have he := h.rel (r - 1)
  have he1 : |rd (r - 1) - (r - 1)| ≤ 4 * r / 2 ^ 53 := le_trans he (by
    rw [div_le_div_iff_of_pos_right (by positivity)]; exact habs)
  have he2 := abs_le.1 he1
  have hD0 : (0 : ℚ) ≤ 1 + rd (r - 1) := by
    have : 4 * r / 2 ^ 53 ≤ r := by rw [div_le_iff₀ (by positivity)]; nlinarith
    linarith [he2.1]
  have hD0' : (0 : ℚ) < 1 + rd (r - 1) := by
    have : 4 * r / 2 ^ 53 < r := by rw [div_lt_iff₀ (by positivity)]; nlinarith
    linarith [he2.1]
  have hDpos : 0 < D := h.pos hD0'
  have hDu : D ≤ z * (1 + 13 / 2 ^ 53) := by
    have h1 : D ≤ (1 + rd (r - 1)) * (1 + 1 / 2 ^ 53) := h.upper hD0
    have h2 : 1 + rd (r - 1) ≤ r * (1 + 4 / 2 ^ 53) := by
      have := he2.2
      have h3 : r * (1 + 4 / 2 ^ 53) = r + 4 * r / 2 ^ 53 := by ring
      linarith
    have h3 : r * (1 + 4 / 2 ^ 53) ≤ z * (1 + 1 / 2 ^ 53) * (1 + 1 / 2 ^ 53) * (1 + 4 / 2 ^ 53) :=
      mul_le_mul_of_nonneg_right hru (by norm_num)
    have h4 : (1 + rd (r - 1)) * (1 + 1 / 2 ^ 53) ≤
        z * (1 + 1 / 2 ^ 53) * (1 + 1 / 2 ^ 53) * (1 + 4 / 2 ^ 53) * (1 + 1 / 2 ^ 53) :=
      mul_le_mul_of_nonneg_right (le_trans h2 h3) (by norm_num)
    refine le_trans h1 (le_trans h4 ?_)
    have : (1 + 1 / 2 ^ 53) * (1 + 1 / 2 ^ 53) * (1 + 4 / 2 ^ 53) * (1 + 1 / 2 ^ 53) ≤ (1 + 13 / 2 ^ 53 : ℚ) := by norm_num
    calc z * (1 + 1 / 2 ^ 53) * (1 + 1 / 2 ^ 53) * (1 + 4 / 2 ^ 53) * (1 + 1 / 2 ^ 53)
        = z * ((1 + 1 / 2 ^ 53) * (1 + 1 / 2 ^ 53) * (1 + 4 / 2 ^ 53) * (1 + 1 / 2 ^ 53)) := by ring
      _ ≤ z * (1 + 13 / 2 ^ 53) := mul_le_mul_of_nonneg_left this hSW.le
  refine ⟨by rw [hrW]; exact hWq.ne', hDpos, ?_⟩
  intro x hx
  have hxq : (0 : ℚ) ≤ x := by exact_mod_cast hx
  have h1 : (x : ℚ) * (1 - 1 / 2 ^ 53) ≤ rd x := h.lower hxq
  have h2 : (x : ℚ) * (1 - 1 / 2 ^ 53) / (z * (1 + 13 / 2 ^ 53)) ≤ rd x / D := by
    apply div_le_div₀ (h.nonneg hxq) h1 hDpos hDu
  have h3 : rd x / D * (1 - 1 / 2 ^ 53) ≤ rd (rd x / D) := h.lower (div_nonneg (h.nonneg hxq) hDpos.le)
  have h4 : (W : ℚ) / S = 1 / z := by rw [← hz]; field_simp
  rw [h4]
  refine le_trans ?_ h3
  refine le_trans ?_ (mul_le_mul_of_nonneg_right h2 (by norm_num))
  have h5 : (x : ℚ) * (1 - 1 / 2 ^ 53) / (z * (1 + 13 / 2 ^ 53)) * (1 - 1 / 2 ^ 53) =
      x * (1 / z) * ((1 - 1 / 2 ^ 53) * (1 - 1 / 2 ^ 53) / (1 + 13 / 2 ^ 53)) := by
    field_simp
  rw [h5]
  apply mul_le_mul_of_nonneg_left _ (mul_nonneg hxq (by positivity))
  norm_num

end
end Verif.Limits
