import Verif.Isolated.Model

/-!
# C24: distributing the isolated nodes
-/

namespace Verif.Isolated
open Finset

theorem advance_spec (k : Nat) (bw mx : Nat → Int) (wu : Int) : ∀ (fuel b : Nat), b < k → k ≤ b + fuel →
    let r := advance k bw mx wu fuel b
    b ≤ r ∧ r < k ∧ (r + 1 < k → bw r + wu ≤ mx r) ∧ ∀ c, b ≤ c → c < r → mx c < bw c + wu
  | 0, b, h1, h2 => by omega
  | fuel + 1, b, h1, h2 => by
    intro r
    by_cases hc : b + 1 < k ∧ bw b + wu > mx b
    · have hr : r = advance k bw mx wu fuel (b + 1) := if_pos hc
      have := advance_spec k bw mx wu fuel (b + 1) hc.1 (by omega)
      rw [← hr] at this
      obtain ⟨a1, a2, a3, a4⟩ := this
      refine ⟨by omega, a2, a3, fun c hb hc' => ?_⟩
      by_cases hcb : c = b
      · subst hcb; omega
      · exact a4 c (by omega) hc'
    · have hr : r = b := if_neg hc
      rw [hr]
      refine ⟨Nat.le_refl _, h1, fun h => ?_, fun c h3 h4 => by omega⟩
      by_contra hgt
      exact hc ⟨h, by omega⟩

/-- What holds after a run of the loop from state `s`. -/
theorem loop_spec (k : Nat) (mx w : Nat → Int) : ∀ (len a : Nat) (s : State), s.b < k →
    let r := (List.range' a len).foldl (step k mx w) s
    r.b < k ∧ s.b ≤ r.b ∧
    (∀ u, ¬ (a ≤ u ∧ u < a + len) → r.part u = s.part u) ∧
    (∀ u, a ≤ u → u < a + len → r.part u < k) ∧
    (∀ b, r.bw b = s.bw b + ∑ u ∈ Ico a (a + len), if r.part u = b then w u else 0) ∧
    (∀ b, b + 1 < k → r.bw b = s.bw b ∨ r.bw b ≤ mx b)
  | 0, a, s, hs => ⟨hs, Nat.le_refl _, fun _ _ => rfl, fun u h1 h2 => by omega, fun b => by simp, fun b _ => Or.inl rfl⟩
  | len + 1, a, s, hs => by
    obtain ⟨v1, v2, v3, v4⟩ := advance_spec k s.bw mx (w a) k s.b hs (by omega)
    set b0 := advance k s.bw mx (w a) k s.b with hb0
    obtain ⟨i1, i2, i3, i4, i5, i6⟩ := loop_spec k mx w len (a + 1) (step k mx w s a) v2
    have hstep : step k mx w s a = ⟨upd s.part a b0, upd s.bw b0 (s.bw b0 + w a), b0⟩ := rfl
    rw [List.range'_succ, List.foldl_cons]
    intro r
    change r.b < k at i1
    have hpa : r.part a = b0 := by
      rw [show r.part a = (step k mx w s a).part a from i3 a (by omega), hstep]
      exact upd_same _ _ _
    refine ⟨i1, Nat.le_trans v1 i2, ?_, ?_, ?_, ?_⟩
    · intro u hu
      rw [show r.part u = (step k mx w s a).part u from i3 u (by omega), hstep]
      exact upd_ne _ _ (by omega)
    · intro u h1 h2
      by_cases hua : u = a
      · subst hua; rw [hpa]; exact v2
      · exact i4 u (by omega) (by omega)
    · intro b
      have := i5 b
      rw [show a + 1 + len = a + (len + 1) by omega] at this
      change r.bw b = _ + ∑ u ∈ _, if r.part u = b then w u else 0 at this
      rw [this, ← Finset.add_sum_Ioo_eq_sum_Ico (show a < a + (len + 1) by omega), hpa,
        show Ico (a + 1) (a + (len + 1)) = Ioo a (a + (len + 1)) from rfl]
      rw [hstep]
      by_cases hb : b = b0
      · subst hb
        show upd s.bw _ _ _ + _ = _
        rw [upd_same, if_pos rfl, add_assoc]
      · show upd s.bw _ _ b + _ = _
        rw [upd_ne _ _ hb, if_neg (Ne.symm hb), zero_add]
    · intro b hbk
      rcases i6 b hbk with h | h
      · by_cases hb : b = b0
        · right
          have h : r.bw b = (step k mx w s a).bw b := h
          rw [h, hstep, hb]
          show upd s.bw _ _ _ ≤ _
          rw [upd_same]
          exact v3 (by omega)
        · left
          have h : r.bw b = (step k mx w s a).bw b := h
          rw [h, hstep]
          exact upd_ne _ _ hb
      · exact Or.inr h

theorem copy_loop (part : Nat → Nat) : ∀ (n : Nat) (p : Nat → Nat) (u : Nat),
    ((List.range n).foldl (fun p u => upd p u (part u)) p) u = if u < n then part u else p u
  | 0, p, u => by simp
  | n + 1, p, u => by
    rw [List.range_succ, List.foldl_append, List.foldl_cons, List.foldl_nil]
    by_cases h : u = n
    · subst h; rw [upd_same, if_pos (by omega)]
    · rw [upd_ne _ _ h, copy_loop part n p u]
      by_cases h2 : u < n
      · rw [if_pos h2, if_pos (by omega)]
      · rw [if_neg h2, if_neg (by omega)]

/-- **C24, assignment.**  Every node gets a block below `k`, the blocks of the other nodes are unchanged, the
maintained weights are the weights of the blocks, and every block except the last either received nothing or
is within its limit. -/
theorem C24_assignment (n num k : Nat) (mx w : Nat → Int) (part : Nat → Nat) (bw : Nat → Int) (noinit : Nat → Nat)
    (hk : 0 < k) (hnum : num ≤ n) (hpart : ∀ u, u < n - num → part u < k)
    (hbw : ∀ b, bw b = ∑ u ∈ range (n - num), if part u = b then w u else 0) :
    let r := assign n num k mx w part bw noinit
    (∀ u, u < n → r.part u < k) ∧ (∀ u, u < n - num → r.part u = part u) ∧
    (∀ b, r.bw b = ∑ u ∈ range n, if r.part u = b then w u else 0) ∧
    (∀ b, b + 1 < k → r.bw b = bw b ∨ r.bw b ≤ mx b) := by
  intro r
  obtain ⟨_, _, i3, i4, i5, i6⟩ := loop_spec k mx w num (n - num)
    ⟨(List.range (n - num)).foldl (fun p u => upd p u (part u)) noinit, bw, 0⟩ hk
  have hsame : ∀ u, u < n - num → r.part u = part u := by
    intro u hu
    have := i3 u (by omega)
    refine this.trans ?_
    show ((List.range (n - num)).foldl (fun p u => upd p u (part u)) noinit) u = _
    rw [copy_loop, if_pos hu]
  refine ⟨fun u hu => ?_, hsame, fun b => ?_, i6⟩
  · by_cases h : u < n - num
    · rw [hsame u h]; exact hpart u h
    · exact i4 u (by omega) (by omega)
  · have h5 := i5 b
    rw [show n - num + num = n by omega] at h5
    refine h5.trans ?_
    rw [← Finset.sum_range_add_sum_Ico _ (show n - num ≤ n by omega)]
    congr 1
    show bw b = _
    rw [hbw b]
    exact Finset.sum_congr rfl fun u hu => by rw [hsame u (Finset.mem_range.1 hu)]

/-- The balance invariant of the loop: the blocks that were passed are nearly full. -/
theorem loop_balance (k : Nat) (mx w : Nat → Int) (W : Int) : ∀ (len a : Nat) (s : State), s.b < k →
    (∀ u, a ≤ u → u < a + len → 0 ≤ w u ∧ w u ≤ W) →
    (∀ b, b < k → s.bw b ≤ mx b) → (∀ b, b < s.b → mx b - W + 1 ≤ s.bw b) →
    ∑ b ∈ range k, s.bw b + ∑ u ∈ Ico a (a + len), w u + (k - 1) * (W - 1) ≤ ∑ b ∈ range k, mx b →
    let r := (List.range' a len).foldl (step k mx w) s
    ∀ b, b < k → r.bw b ≤ mx b
  | 0, a, s, _, _, h, _, _ => h
  | len + 1, a, s, hs, hw, hle, hfull, hsum => by
    obtain ⟨v1, v2, v3, v4⟩ := advance_spec k s.bw mx (w a) k s.b hs (by omega)
    set b0 := advance k s.bw mx (w a) k s.b with hb0
    have hstep : step k mx w s a = ⟨upd s.part a b0, upd s.bw b0 (s.bw b0 + w a), b0⟩ := rfl
    have hwa := hw a (by omega) (by omega)
    have hrest : 0 ≤ ∑ u ∈ Ico (a + 1) (a + (len + 1)), w u := Finset.sum_nonneg fun u hu => by
      have := Finset.mem_Ico.1 hu
      exact (hw u (by omega) (by omega)).1
    have hsplit : ∑ u ∈ Ico a (a + (len + 1)), w u = w a + ∑ u ∈ Ico (a + 1) (a + (len + 1)), w u :=
      (Finset.add_sum_Ioo_eq_sum_Ico (show a < a + (len + 1) by omega)).symm
    have hnear : ∀ b, b < b0 → mx b - W + 1 ≤ s.bw b := by
      intro b hb
      by_cases h : b < s.b
      · exact hfull b h
      · have := v4 b (by omega) hb
        omega
    have hb0le : s.bw b0 + w a ≤ mx b0 := by
      by_cases h : b0 + 1 < k
      · exact v3 h
      · have hk : k = b0 + 1 := by omega
        have hs1 : ∑ b ∈ range b0, (mx b - W + 1) ≤ ∑ b ∈ range b0, s.bw b :=
          Finset.sum_le_sum fun b hb => hnear b (Finset.mem_range.1 hb)
        have hs2 : ∑ b ∈ range b0, (mx b - W + 1) = ∑ b ∈ range b0, mx b - b0 * (W - 1) := by
          rw [Finset.sum_add_distrib, Finset.sum_sub_distrib]
          simp only [Finset.sum_const, Finset.card_range, nsmul_eq_mul, mul_one]
          ring
        have hc : ((k : Int) - 1) * (W - 1) = b0 * (W - 1) := by rw [hk]; push_cast; ring
        rw [hc, hsplit] at hsum
        rw [hk, Finset.sum_range_succ, Finset.sum_range_succ] at hsum
        generalize (b0 : Int) * (W - 1) = X at *
        omega
    rw [List.range'_succ, List.foldl_cons]
    refine loop_balance k mx w W len (a + 1) (step k mx w s a) v2 (fun u h1 h2 => hw u (by omega) (by omega)) ?_ ?_ ?_
    · intro b hb
      rw [hstep]
      show upd s.bw _ _ b ≤ _
      by_cases h : b = b0
      · subst h; rw [upd_same]; exact hb0le
      · rw [upd_ne _ _ h]; exact hle b hb
    · intro b hb
      rw [hstep] at hb ⊢
      have hb : b < b0 := hb
      show _ ≤ upd s.bw _ _ b
      rw [upd_ne _ _ (by omega)]
      exact hnear b hb
    · rw [show a + 1 + len = a + (len + 1) by omega]
      have := sum_upd (range k) (fun _ x => x) s.bw (Finset.mem_range.2 v2) (s.bw b0 + w a)
      rw [hstep]
      show ∑ b ∈ range k, upd s.bw b0 (s.bw b0 + w a) b + _ + _ ≤ _
      rw [this]
      omega

/-- **C24, balance.**  If all blocks are within their limits, the isolated nodes have weights between 0 and `W`, and
the total weight fits with a slack of `(k - 1)(W - 1)`, then no block exceeds its limit.  In particular, for isolated
nodes of weight 1 it suffices that the total weight fits.  (Without the slack the claim is false, see
`C24_overload_possible`.) -/
theorem C24_balanced_partial (n num k : Nat) (mx w : Nat → Int) (part : Nat → Nat) (bw : Nat → Int)
    (noinit : Nat → Nat) (W : Int) (hk : 0 < k) (hnum : num ≤ n)
    (hw : ∀ u, n - num ≤ u → u < n → 0 ≤ w u ∧ w u ≤ W)
    (hle : ∀ b, b < k → bw b ≤ mx b)
    (hfit : ∑ b ∈ range k, bw b + ∑ u ∈ Ico (n - num) n, w u + (k - 1) * (W - 1) ≤ ∑ b ∈ range k, mx b) :
    ∀ b, b < k → (assign n num k mx w part bw noinit).bw b ≤ mx b := by
  have := loop_balance k mx w W num (n - num)
    ⟨(List.range (n - num)).foldl (fun p u => upd p u (part u)) noinit, bw, 0⟩ hk
    (fun u h1 h2 => hw u h1 (by omega)) hle (fun b hb => by have hb : b < 0 := hb; omega)
  rw [show n - num + num = n by omega] at this
  exact this hfit

/-- **C24, unit weights.** -/
theorem C24_balanced_unit_weights (n num k : Nat) (mx w : Nat → Int) (part : Nat → Nat) (bw : Nat → Int)
    (noinit : Nat → Nat) (hk : 0 < k) (hnum : num ≤ n) (hw : ∀ u, n - num ≤ u → u < n → w u = 1)
    (hle : ∀ b, b < k → bw b ≤ mx b) (hfit : ∑ b ∈ range k, bw b + num ≤ ∑ b ∈ range k, mx b) :
    ∀ b, b < k → (assign n num k mx w part bw noinit).bw b ≤ mx b := by
  refine C24_balanced_partial n num k mx w part bw noinit 1 hk hnum
    (fun u h1 h2 => by rw [hw u h1 h2]; decide) hle ?_
  have : ∑ u ∈ Ico (n - num) n, w u = num := by
    rw [Finset.sum_congr rfl fun u hu => hw u (Finset.mem_Ico.1 hu).1 (Finset.mem_Ico.1 hu).2]
    simp only [Finset.sum_const, Nat.card_Ico, nsmul_eq_mul, mul_one]
    omega
  rw [this]
  omega

/-- **C24, negative.**  Three blocks with limits 4, 4, 4 and isolated nodes of weights 3, 3, 3, 1, 1, 1: the total
weight 12 fits exactly (and a balanced assignment exists), but the last block gets weight 6. -/
theorem C24_overload_possible :
    let mx : Nat → Int := fun _ => 4
    let w : Nat → Int := fun u => [3, 3, 3, 1, 1, 1].getD u 0
    let r := assign 6 6 3 mx w (fun _ => 0) (fun _ => 0) fun _ => 0
    (List.range 3).map r.bw = [3, 3, 6] ∧
    ∃ good : Nat → Nat, (List.range 3).map (fun b => ((List.range 6).map fun u => if good u = b then w u else 0).sum) =
      [4, 4, 4] := by
  intro mx w r
  exact ⟨by decide +kernel, fun u => u % 3, by decide +kernel⟩

/-- Non-vacuity: two blocks of weights 2 and 3 with limit 4, three isolated nodes of weight 1. -/
example : (List.range 5).map (assign 5 3 2 (fun _ => 4) (fun u => if u < 2 then u + 2 else 1) (fun u => u)
    (fun b => b + 2) fun _ => 9).part = [0, 1, 0, 0, 1] := by decide +kernel

end Verif.Isolated
