import Verif.Subgraph.Recursive
import Verif.Vcycle.Model
import Verif.Vcycle.Spec

/-! Lemmas: the limits of v-cycles. -/

namespace Verif.Vcycle
open Verif.Math Verif.Blocks Verif.Subgraph

/-! ## Sums -/

theorem toInt32_range (x : Int) : -2 ^ 31 ≤ toInt32 x ∧ toInt32 x < 2 ^ 31 := by
  unfold toInt32
  omega

theorem toInt32_small {x : Int} (h : -2 ^ 31 ≤ x) (h' : x < 2 ^ 31) : toInt32 x = x := by
  unfold toInt32
  omega

theorem toInt32_add (x y : Int) : toInt32 (toInt32 x + y) = toInt32 (x + y) := by
  unfold toInt32
  omega

theorem accumulate_wide : ∀ (xs : List Int) (acc : Int), accumulate? true (toInt32 acc) xs = some (toInt32 (acc + xs.sum))
  | [], acc => by rw [List.sum_nil, Int.add_zero]; rfl
  | x :: xs, acc => by
    show accumulate? true (toInt32 (toInt32 acc + x)) xs = _
    rw [toInt32_add, accumulate_wide xs, List.sum_cons, Int.add_assoc]

theorem accumulate_small (wide : Bool) : ∀ (xs : List Int) (acc : Int), 0 ≤ acc → (∀ x, x ∈ xs → 0 ≤ x) → acc + xs.sum < 2 ^ 31 →
    accumulate? wide acc xs = some (acc + xs.sum)
  | [], acc, _, _, _ => by rw [List.sum_nil, Int.add_zero]; rfl
  | x :: xs, acc, h0, hx, hs => by
    have h1 := hx x List.mem_cons_self
    have hs0 : 0 ≤ xs.sum := List.sum_nonneg fun y hy => hx y (List.mem_cons_of_mem _ hy)
    rw [List.sum_cons] at hs ⊢
    have ih := accumulate_small wide xs (acc + x) (by omega) (fun y hy => hx y (List.mem_cons_of_mem _ hy)) (by omega)
    rw [Int.add_assoc] at ih
    unfold accumulate?
    by_cases hw : wide = true
    · rw [if_pos hw, toInt32_small (by omega) (by omega), ih]
    · rw [if_neg hw, if_pos (by omega), ih]

/-! ## The loop -/

/-- The entries that belong to block `b`. -/
def part (next : List Int) (n : Nat → Nat) (b : Nat) : List Int := (next.drop (sumTo n b)).take (n b)

theorem parts_flatten (next : List Int) (n : Nat → Nat) : ∀ c, ((List.range c).map (part next n)).flatten = next.take (sumTo n c)
  | 0 => by rw [sumTo, List.take_zero]; rfl
  | c + 1 => by
    rw [List.range_succ, List.map_append, List.flatten_append, parts_flatten next n c, sumTo, List.take_add]
    simp [part]

theorem limit_fold {wide : Bool} {k : Nat} {next : List Int} {n : Nat → Nat} {F : List Int → Int} (hn : ∀ b, b < k → subBlocks? k next.length b = some (n b))
    (hF : ∀ b, b < k → accumulate? wide 0 (part next n b) = some (F (part next n b))) (hfit : sumTo n k ≤ next.length) : ∀ c, c ≤ k →
    (List.range c).foldlM (limitStep? wide k next) (0, []) = some (sumTo n c, (List.range c).map fun b => F (part next n b))
  | 0, _ => rfl
  | c + 1, hc => by
    have hmono : ∀ d, sumTo n (c + 1) ≤ sumTo n (c + 1 + d) := by
      intro d
      induction d with
      | zero => exact Nat.le_refl _
      | succ d ih => exact Nat.le_trans ih (Nat.le_add_right _ _)
    have h := hmono (k - (c + 1))
    rw [show c + 1 + (k - (c + 1)) = k by omega] at h
    rw [List.range_succ, List.foldlM_append, limit_fold hn hF hfit c (by omega), List.map_append]
    show limitStep? wide k next _ c >>= _ = _
    unfold limitStep?
    rw [hn c (by omega), Option.bind_some, if_pos (show sumTo n c + n c ≤ next.length from Nat.le_trans h hfit)]
    have := hF c (by omega)
    unfold part at this
    rw [this]
    rfl

theorem limit_fold_fits {wide : Bool} {k : Nat} {next : List Int} {n : Nat → Nat} (hn : ∀ b, b < k → subBlocks? k next.length b = some (n b)) :
    ∀ c, c ≤ k → ∀ s, (List.range c).foldlM (limitStep? wide k next) (0, []) = some s → s.1 = sumTo n c ∧ s.1 ≤ next.length
  | 0, _, s, h => by
    injection h with h
    rw [← h]
    exact ⟨rfl, Nat.zero_le _⟩
  | c + 1, hc, s, h => by
    rw [List.range_succ, List.foldlM_append] at h
    cases h1 : (List.range c).foldlM (limitStep? wide k next) (0, []) with
    | none => rw [h1] at h; cases h
    | some s1 =>
      obtain ⟨h2, h3⟩ := limit_fold_fits hn c (by omega) s1 h1
      rw [h1] at h
      have h : limitStep? wide k next s1 c >>= (fun s => some s) = some s := h
      unfold limitStep? at h
      rw [hn c (by omega), Option.bind_some] at h
      by_cases hfit : s1.1 + n c ≤ next.length
      · rw [if_pos hfit] at h
        cases h4 : accumulate? wide 0 ((next.drop s1.1).take (n c)) with
        | none => rw [h4] at h; cases h
        | some x =>
          rw [h4] at h
          injection h with h
          rw [← h]
          exact ⟨by rw [sumTo, h2], hfit⟩
      · rw [if_neg hfit] at h; cases h

/-! ## The numbers of sub-blocks -/

/-- The number of final blocks for each block of a partial level; `l` is the level of the blocks that were not split. -/
def counts (c next l b : Nat) : Nat :=
  if b < 2 * (c - 2 ^ l) then (if 2 ^ (l + 1) ≤ next then treeLabel next (l + 1) b else 1) else treeLabel next l (b - (c - 2 ^ l))

theorem subBlocks_eq {c next l b : Nat} (h1 : 2 ^ l ≤ c) (h2 : c < 2 ^ (l + 1)) (h3 : c ≤ next) (hk : next < 2 ^ 31) (hb : b < c) :
    subBlocks? c next b = some (counts c next l b) := by
  have hpos := Nat.two_pow_pos l
  have hpw : 2 ^ (l + 1) = 2 * 2 ^ l := by rw [Nat.pow_succ]; omega
  have hlog : Nat.log2 c = l := (Nat.log2_eq_iff (by omega)).2 ⟨h1, h2⟩
  have hl31 : l < 31 := (Nat.pow_lt_pow_iff_right (by decide)).1 (Nat.lt_of_le_of_lt (Nat.le_trans h1 h3) hk)
  have h32 : (2 : Nat) ^ 31 < 2 ^ 32 := by decide
  unfold subBlocks? counts
  rw [floorLog2_eq (by omega) (by omega), Option.bind_some, hlog]
  by_cases hx : b < 2 * (c - 2 ^ l)
  · rw [if_pos hx, if_pos hx]
    obtain ⟨j, g1, g2, g3⟩ := ceilLog2_spec (w := 32) (x := c) (by omega) (by omega)
    have hj : j = l + 1 := by
      have := g3 (l + 1) (by omega)
      by_contra hne
      have : 2 ^ j ≤ 2 ^ l := Nat.pow_le_pow_right (by decide) (by omega)
      omega
    subst hj
    unfold ceil2?
    rw [g1, Option.bind_some, if_pos (by omega), Option.bind_some]
    by_cases hn : 2 ^ (l + 1) ≤ next
    · rw [if_pos hn, Nat.min_eq_left hn, finalKRoot_eq hk hn (by omega)]
    · rw [if_neg hn, Nat.min_eq_right (by omega)]
      unfold finalKRoot? finalK?
      rw [if_neg (by omega), if_pos rfl]
  · rw [if_neg hx, if_neg hx]
    unfold floor2?
    rw [floorLog2_eq (by omega) (by omega), Option.bind_some, hlog, if_pos (by omega), Option.bind_some, finalKRoot_eq hk (by omega) (by omega)]

theorem sumTo_congr {f g : Nat → Nat} : ∀ n, (∀ b, b < n → f b = g b) → sumTo f n = sumTo g n
  | 0, _ => rfl
  | n + 1, h => by rw [sumTo, sumTo, sumTo_congr n fun b hb => h b (by omega), h n (by omega)]

theorem sumTo_shift (f g : Nat → Nat) (e : Nat) : ∀ d,
    sumTo (fun b => if b < 2 * e then f b else g (b - e)) (2 * e + d) + sumTo g e = sumTo f (2 * e) + sumTo g (e + d)
  | 0 => by
    rw [Nat.add_zero, Nat.add_zero, sumTo_congr (2 * e) fun b hb => if_pos hb]
  | d + 1 => by
    have ih := sumTo_shift f g e d
    rw [show 2 * e + (d + 1) = 2 * e + d + 1 by omega, show e + (d + 1) = e + d + 1 by omega, sumTo, sumTo, if_neg (by omega),
      show 2 * e + d - e = e + d by omega]
    omega

theorem counts_sum {c next l : Nat} (h1 : 2 ^ l ≤ c) (h2 : c < 2 ^ (l + 1)) :
    sumTo (counts c next l) c + sumTo (treeLabel next l) (c - 2 ^ l) =
      next + (if 2 ^ (l + 1) ≤ next then sumTo (treeLabel next l) (c - 2 ^ l) else 2 * (c - 2 ^ l)) := by
  have hpw : 2 ^ (l + 1) = 2 * 2 ^ l := by rw [Nat.pow_succ]; omega
  have h := sumTo_shift (fun b => if 2 ^ (l + 1) ≤ next then treeLabel next (l + 1) b else 1) (treeLabel next l) (c - 2 ^ l) (2 ^ l - (c - 2 ^ l))
  rw [show 2 * (c - 2 ^ l) + (2 ^ l - (c - 2 ^ l)) = c by omega, show c - 2 ^ l + (2 ^ l - (c - 2 ^ l)) = 2 ^ l by omega, sumTo_total] at h
  have h' : sumTo (counts c next l) c + sumTo (treeLabel next l) (c - 2 ^ l) = _ := h
  rw [h', Nat.add_comm]
  congr 1
  by_cases hn : 2 ^ (l + 1) ≤ next
  · rw [if_pos hn, sumTo_congr _ fun b _ => if_pos hn, sumTo_double]
  · rw [if_neg hn, sumTo_congr (g := fun _ => 1) _ fun b _ => if_neg hn]
    have : ∀ m, sumTo (fun _ => 1) m = m := by
      intro m
      induction m with
      | zero => rfl
      | succ m ih => rw [sumTo, ih]
    exact this _

theorem label_two {next l b : Nat} (h1 : 2 ^ l ≤ next) (h2 : next < 2 ^ (l + 1)) (hb : b < 2 ^ l) : 1 ≤ treeLabel next l b ∧ treeLabel next l b ≤ 2 := by
  have hpw : 2 ^ (l + 1) = 2 * 2 ^ l := by rw [Nat.pow_succ]; omega
  rw [treeLabel_eq next l b hb]
  have : next / 2 ^ l = 1 := Nat.div_eq_of_lt_le (by omega) (by omega)
  rw [this]
  split <;> omega

theorem sumTo_two {f : Nat → Nat} : ∀ e, (∀ b, b < e → f b ≤ 2) → sumTo f e ≤ 2 * e ∧ (sumTo f e = 2 * e ↔ ∀ b, b < e → f b = 2)
  | 0, _ => ⟨Nat.le_refl _, fun _ b hb => absurd hb (Nat.not_lt_zero _), fun _ => rfl⟩
  | e + 1, h => by
    obtain ⟨a1, a2⟩ := sumTo_two e fun b hb => h b (by omega)
    have := h e (by omega)
    rw [sumTo]
    refine ⟨by omega, fun hs b hb => ?_, fun hs => ?_⟩
    · by_cases hbe : b = e
      · subst hbe; omega
      · exact a2.1 (by omega) b (by omega)
    · have := a2.2 fun b hb => hs b (by omega)
      have := hs e (by omega)
      omega

/-- The blocks of a partial level have `next` final blocks together, unless the level is not complete in the next v-cycle either, and some
block that is taken as split is not split there. -/
theorem counts_total {c next l : Nat} (h1 : 2 ^ l ≤ c) (h2 : c < 2 ^ (l + 1)) (h3 : c ≤ next) :
    next ≤ sumTo (counts c next l) c ∧
    (sumTo (counts c next l) c = next ↔ (next < 2 ^ (l + 1) → ∀ j, j < c - 2 ^ l → treeLabel next l j = 2)) := by
  have hpw : 2 ^ (l + 1) = 2 * 2 ^ l := by rw [Nat.pow_succ]; omega
  have h := counts_sum (next := next) h1 h2
  by_cases hn : 2 ^ (l + 1) ≤ next
  · rw [if_pos hn] at h
    exact ⟨by omega, fun _ h => by omega, fun _ => by omega⟩
  · rw [if_neg hn] at h
    obtain ⟨a1, a2⟩ := sumTo_two (f := treeLabel next l) (c - 2 ^ l) fun b hb => (label_two (by omega) (by omega) (by omega)).2
    refine ⟨by omega, fun e _ => a2.1 (by omega), fun e => ?_⟩
    have := a2.2 (e (by omega))
    omega

theorem counts_pos {c next l b : Nat} (h1 : 2 ^ l ≤ c) (h2 : c < 2 ^ (l + 1)) (h3 : c ≤ next) (hb : b < c) : 1 ≤ counts c next l b := by
  have hpw : 2 ^ (l + 1) = 2 * 2 ^ l := by rw [Nat.pow_succ]; omega
  have key : ∀ m x, 2 ^ m ≤ next → x < 2 ^ m → 1 ≤ treeLabel next m x := by
    intro m x hm hx
    rw [treeLabel_eq next m x hx]
    have : 1 ≤ next / 2 ^ m := (Nat.le_div_iff_mul_le (Nat.two_pow_pos m)).2 (by omega)
    omega
  unfold counts
  split
  · split
    · exact key _ _ (by omega) (by omega)
    · exact Nat.le_refl _
  · exact key _ _ (by omega) (by omega)

end Verif.Vcycle
