import Verif.Metrics.Model
import Mathlib.Tactic.IntervalCases

/-!
# C19: the reported edge cut is the true cut.  C20: balance metrics
-/

namespace Verif.Metrics
open Finset

theorem foldl_sum {α : Type} (f : α → Int) : ∀ (l : List α) (a : Int),
    l.foldl (fun s t => s + f t) a = a + (l.map f).sum
  | [], a => by simp
  | x :: l, a => by rw [List.foldl_cons, foldl_sum f l, List.map_cons, List.sum_cons, add_assoc]

theorem sum_range_list (n : Nat) (f : Nat → Int) : ∑ u ∈ range n, f u = ((List.range n).map f).sum := by
  rw [Finset.sum_eq_multiset_sum]; rfl

theorem addNode_eq (g : Graph) (part : Nat → Nat) (cut : Int) (u : Nat) :
    addNode g part cut u = cut + g.conn u (fun v => part u ≠ part v) := by
  unfold addNode Graph.conn
  rw [foldl_sum fun e : Nat × Int => if part u ≠ part e.1 then e.2 else 0]

theorem foldl_addNode (g : Graph) (part : Nat → Nat) (us : List Nat) (cut : Int) :
    us.foldl (addNode g part) cut = cut + (us.map fun u => g.conn u (fun v => part u ≠ part v)).sum := by
  rw [← foldl_sum]
  congr 1
  funext cut u
  exact addNode_eq g part cut u

theorem halve_two (x : Int) : halve (2 * x) = some x := by
  unfold halve
  rw [if_pos (by omega)]
  congr 1
  omega

/-- **C19, sequential.**  For every undirected graph and partition the result is the total weight of the
edges between different blocks, each counted once; the check that the sum is even never fails. -/
theorem C19_edge_cut_sequential (g : Graph) (hg : g.WF) (hs : g.Symm) (part : Nat → Nat) :
    edgeCutSeq g part = some (g.cut part) := by
  unfold edgeCutSeq
  rw [foldl_addNode, zero_add, ← sum_range_list, g.sum_conn_ne hg hs, halve_two]

/-- **C19, parallel.**  The same for every split of the nodes into ranges and every distribution of the
ranges to threads. -/
theorem C19_edge_cut_parallel (g : Graph) (hg : g.WF) (hs : g.Symm) (part : Nat → Nat) (T : Nat)
    (chunks : List (Nat × List Nat)) (hT : ∀ c ∈ chunks, c.1 < T)
    (hperm : (chunks.flatMap Prod.snd).Perm (List.range g.n)) :
    edgeCutPar g part T chunks = some (g.cut part) := by
  have key : ∀ (chunks : List (Nat × List Nat)) (ets : Nat → Int), (∀ c ∈ chunks, c.1 < T) →
      ∑ t ∈ range T, chunks.foldl (fun ets c => upd ets c.1 (c.2.foldl (addNode g part) (ets c.1))) ets t =
        ∑ t ∈ range T, ets t +
          ((chunks.flatMap Prod.snd).map fun u => g.conn u (fun v => part u ≠ part v)).sum := by
    intro chunks
    induction chunks with
    | nil => intro ets _; simp
    | cons c chunks ih =>
      intro ets h
      rw [List.foldl_cons, ih _ fun c' hc' => h c' (List.mem_cons_of_mem _ hc'), List.flatMap_cons,
        List.map_append, List.sum_append, ← add_assoc]
      congr 1
      rw [sum_upd (range T) (fun _ (x : Int) => x) ets (mem_range.2 (h c List.mem_cons_self)),
        foldl_addNode]
      ring
  show halve ((List.range T).foldl (fun sum t => sum + _) 0) = _
  rw [foldl_sum, zero_add, ← sum_range_list, key chunks _ hT, Finset.sum_const_zero, zero_add,
    (hperm.map _).sum_eq, ← sum_range_list, g.sum_conn_ne hg hs, halve_two]

/-- **C19, one block.**  The cut is zero if all nodes share a block. -/
theorem C19_single_block (g : Graph) (hg : g.WF) (hs : g.Symm) (part : Nat → Nat) (b : Nat)
    (h : ∀ u, u < g.n → part u = b) : edgeCutSeq g part = some 0 := by
  rw [C19_edge_cut_sequential g hg hs]
  congr 1
  apply Finset.sum_eq_zero
  intro u hu
  apply Finset.sum_eq_zero
  intro v hv
  have h1 := mem_range.1 hu
  have h2 := mem_range.1 hv
  rw [h u h1, h v (by omega)]
  simp

/-- A triangle with weights 1, 2, 3 and a pendant node with a double edge. -/
def exGraph : Graph :=
  { n := 4, w := fun _ => 1
    adj := fun u => [[(1, 1), (2, 2)], [(0, 1), (2, 3), (3, 5), (3, 4)], [(1, 3), (0, 2)],
      [(1, 5), (1, 4)]].getD u [] }

theorem exGraph_ok : exGraph.WF ∧ exGraph.Symm := by
  constructor
  · unfold Graph.WF; decide
  · intro u v c hu hv
    have hu : u < 4 := hu
    have hv : v < 4 := hv
    interval_cases u <;> interval_cases v <;> simp [exGraph, List.count_cons, List.count_nil]

example : edgeCutSeq exGraph (fun u => if u = 1 then 0 else 1) = some 13 := by decide

/-! ## C20 -/

/-- **C20, balance test.** -/
theorem C20_is_balanced (k : Nat) (bw maxBw : Nat → Int) :
    isBalanced k bw maxBw = true ↔ ∀ b, b < k → bw b ≤ maxBw b := by
  unfold isBalanced
  simp

/-- **C20, overload.**  The total overload is the sum of the excesses, and zero exactly for balanced
partitions. -/
theorem C20_total_overload (k : Nat) (bw maxBw : Nat → Int) :
    totalOverload k bw maxBw = ∑ b ∈ range k, (if maxBw b < bw b then bw b - maxBw b else 0) ∧
      (totalOverload k bw maxBw = 0 ↔ isBalanced k bw maxBw = true) := by
  have h1 : totalOverload k bw maxBw = ∑ b ∈ range k, max 0 (bw b - maxBw b) := by
    unfold totalOverload
    rw [foldl_sum, zero_add, sum_range_list]
  refine ⟨?_, ?_⟩
  · rw [h1]
    apply Finset.sum_congr rfl
    intro b _
    split <;> omega
  · rw [h1, Finset.sum_eq_zero_iff_of_nonneg fun b _ => le_max_left _ _, C20_is_balanced]
    constructor
    · intro h b hb
      have := h b (mem_range.2 hb)
      omega
    · intro h b hb
      have := h b (mem_range.1 hb)
      omega

theorem Rounding.int {rd : ℚ → ℚ} (h : Rounding rd) {m : Int} (hm : |m| ≤ 2 ^ 53) : rd m = m := by
  have := h.exact m 0 hm (by omega)
  simpa using this

/-- The weight of a perfectly balanced block is computed exactly for total weights up to `2^51`. -/
theorem perfect_eq {rd : ℚ → ℚ} (h : Rounding rd) {total : Int} {k : Nat} (h0 : 0 ≤ total)
    (h1 : total ≤ 2 ^ 51) (hk : 0 < k) (hk2 : k ≤ 2 ^ 53) : perfect rd total k = ⌈(total : ℚ) / k⌉ := by
  unfold perfect
  have hrt : rd total = total := h.int (by rw [abs_of_nonneg h0]; omega)
  have hrk : rd k = k := by
    have := h.int (m := (k : Int)) (by rw [abs_of_nonneg (by omega)]; exact_mod_cast hk2)
    exact_mod_cast this
  rw [hrt, hrk]
  by_cases ht : total = 0
  · subst ht
    have h2 := h.int (m := 0) (by norm_num)
    simp only [Int.cast_zero, zero_div] at h2 ⊢
    rw [h2]
  have hkq : (0 : ℚ) < k := by exact_mod_cast hk
  generalize hc : ⌈(total : ℚ) / k⌉ = c
  have hc0 : 0 ≤ c := by rw [← hc]; exact Int.ceil_nonneg (div_nonneg (by exact_mod_cast h0) hkq.le)
  have hup : (total : ℚ) / k ≤ c := by rw [← hc]; exact Int.le_ceil _
  have hlo : (c : ℚ) - 1 < total / k := by
    have := Int.ceil_lt_add_one ((total : ℚ) / k)
    rw [hc] at this
    linarith
  have hct : c ≤ total + 1 := by
    have h2 : (total : ℚ) / k ≤ total :=
      div_le_self (by exact_mod_cast h0) (by exact_mod_cast hk)
    have h3 : (c : ℚ) < total + 1 := by linarith
    have : c < total + 1 := by exact_mod_cast h3
    omega
  apply le_antisymm
  · rw [Int.ceil_le, ← h.int (m := c) (by rw [abs_of_nonneg hc0]; omega)]
    exact h.mono _ _ hup
  · -- a representable number between `c - 1` and the quotient
    rw [Int.le_ceil_iff]
    have hint : (c - 1) * k + 1 ≤ total := by
      have h2 : ((c : ℚ) - 1) * k < total := by rwa [lt_div_iff₀ hkq] at hlo
      have h3 : (c - 1) * (k : Int) < total := by exact_mod_cast h2
      omega
    obtain ⟨j, hj1, hj2, hj3⟩ : ∃ j : Nat, k ≤ 2 ^ j ∧ 2 ^ j ≤ 2 * k ∧ j ≤ 1000 := by
      refine ⟨Nat.log2 k + 1, (Nat.lt_log2_self).le, ?_, ?_⟩
      · rw [pow_succ]
        have := Nat.log2_self_le (show k ≠ 0 by omega)
        omega
      · have : Nat.log2 k ≤ 53 := by
          by_contra hcon
          have h2 : 2 ^ 54 ≤ 2 ^ Nat.log2 k := Nat.pow_le_pow_right (by omega) (by omega)
          have := Nat.log2_self_le (show k ≠ 0 by omega)
          omega
        omega
    have hpow : (0 : ℚ) < 2 ^ j := by positivity
    have hjq : (k : ℚ) ≤ 2 ^ j := by exact_mod_cast hj1
    have hrep : rd ((((c - 1) * 2 ^ j + 1 : Int) : ℚ) / 2 ^ j) = (((c - 1) * 2 ^ j + 1 : Int) : ℚ) / 2 ^ j := by
      · have hcz : 1 ≤ c := by
          by_contra hcon
          have h9 : c = 0 := by omega
          rw [h9] at hup
          have : (total : ℚ) / k = 0 := le_antisymm (by simpa using hup) (div_nonneg (by exact_mod_cast h0) hkq.le)
          rw [div_eq_zero_iff] at this
          rcases this with h10 | h10
          · exact ht (by exact_mod_cast h10)
          · linarith
        apply h.exact _ _ _ hj3
        have hnn : 0 ≤ (c - 1) * 2 ^ j := mul_nonneg (by omega) (by positivity)
        rw [abs_of_nonneg (by omega)]
        have h4 : (c - 1) * 2 ^ j ≤ (c - 1) * (2 * k) :=
          mul_le_mul_of_nonneg_left (by exact_mod_cast hj2) (by omega)
        have h5 : (c - 1) * (2 * (k : Int)) = 2 * ((c - 1) * k) := by ring
        omega
    have hle : (((c - 1) * 2 ^ j + 1 : Int) : ℚ) / 2 ^ j ≤ total / k := by
      rw [div_le_div_iff₀ hpow hkq]
      have h6 : ((c : ℚ) - 1) * k + 1 ≤ total := by exact_mod_cast hint
      push_cast
      nlinarith
    have h7 := h.mono _ _ hle
    rw [hrep] at h7
    have h8 : ((c : ℚ) - 1) < (((c - 1) * 2 ^ j + 1 : Int) : ℚ) / 2 ^ j := by
      rw [lt_div_iff₀ hpow]
      push_cast
      linarith
    linarith


/-! ### Block limits derived from the imbalance parameter -/

theorem limit_ge_perfect {rd : ℚ → ℚ} (h : Rounding rd) {total : Int} {k : Nat} {eps : ℚ} (h0 : 0 ≤ total)
    (h1 : total ≤ 2 ^ 51) (hk : 0 < k) (hk2 : k ≤ 2 ^ 53) (he : 0 ≤ eps) :
    perfect rd total k ≤ ⌊rd (rd (1 + eps) * perfect rd total k)⌋ := by
  have hp := perfect_eq h h0 h1 hk hk2
  have hkq : (0 : ℚ) < k := by exact_mod_cast hk
  generalize hc : perfect rd total k = c at *
  have hc0 : 0 ≤ c := by rw [hp]; exact Int.ceil_nonneg (div_nonneg (by exact_mod_cast h0) hkq.le)
  have hct : c ≤ total + 1 := by
    have h2 : (total : ℚ) / k ≤ total :=
      div_le_self (by exact_mod_cast h0) (by exact_mod_cast hk)
    have h3 := Int.ceil_lt_add_one ((total : ℚ) / k)
    rw [← hp] at h3
    have h4 : (c : ℚ) < total + 1 := by linarith
    have : c < total + 1 := by exact_mod_cast h4
    omega
  rw [Int.le_floor]
  have h5 : (1 : ℚ) ≤ rd (1 + eps) := by
    have h6 := h.mono 1 (1 + eps) (by linarith)
    have h7 := h.int (m := 1) (by norm_num)
    simp only [Int.cast_one] at h7
    rwa [h7] at h6
  have h8 : (c : ℚ) ≤ rd (1 + eps) * c := by
    have : (0 : ℚ) ≤ c := by exact_mod_cast hc0
    nlinarith
  have h9 := h.mono _ _ h8
  rwa [h.int (by rw [abs_of_nonneg hc0]; omega)] at h9

theorem setupEps_unrelaxed (rd : ℚ → ℚ) (old : Ctx) (total maxNode : Int) (k : Nat) (eps : ℚ) (relax : Bool)
    (b : Nat) : (Ctx.setupEps rd old total maxNode k eps relax).unrelaxed b =
      ⌊rd (rd (1 + eps) * perfect rd total k)⌋ := rfl

theorem setupVector_ge (rd : ℚ → ℚ) (old : Ctx) (total maxNode : Int) (k : Nat) (mb : Nat → Int) (relax : Bool)
    (b : Nat) : mb b ≤ (Ctx.setupVector rd old total maxNode k mb relax).maxBw b := by
  show mb b ≤ (if relax then _ else mb) b
  split
  · exact le_max_left _ _
  · exact le_refl _

/-- **C20, explicit limits.**  Limits given by the caller are kept; relaxing never lowers one of them. -/
theorem C20_explicit_limits (rd : ℚ → ℚ) (old : Ctx) (total maxNode : Int) (k : Nat) (mb : Nat → Int)
    (relax : Bool) (b : Nat) :
    (Ctx.setupVector rd old total maxNode k mb false).maxBw b = mb b ∧
      mb b ≤ (Ctx.setupVector rd old total maxNode k mb relax).maxBw b :=
  ⟨rfl, setupVector_ge rd old total maxNode k mb relax b⟩

/-- **C20, limits from the imbalance (partial).**  For total node weights up to `2^51` every limit is at
least `⌈total / k⌉`, and the limits together leave room for all nodes, however doubles are rounded.
Missing: larger totals, see `C20_large_total_does_not_fit`. -/
theorem C20_limits_leave_room_partial {rd : ℚ → ℚ} (h : Rounding rd) (old : Ctx) (total maxNode : Int) (k : Nat)
    (eps : ℚ) (relax : Bool) (h0 : 0 ≤ total) (h1 : total ≤ 2 ^ 51) (hk : 0 < k) (hk2 : k ≤ 2 ^ 53)
    (he : 0 ≤ eps) :
    (∀ b, b < k → ⌈(total : ℚ) / k⌉ ≤ (Ctx.setupEps rd old total maxNode k eps relax).maxBw b) ∧
      total ≤ ∑ b ∈ range k, (Ctx.setupEps rd old total maxNode k eps relax).maxBw b := by
  have key : ∀ b, ⌈(total : ℚ) / k⌉ ≤ (Ctx.setupEps rd old total maxNode k eps relax).maxBw b := by
    intro b
    rw [← perfect_eq h h0 h1 hk hk2]
    exact (limit_ge_perfect h h0 h1 hk hk2 he).trans
      (setupVector_ge rd { old with epsilon := eps } total maxNode k _ relax b)
  refine ⟨fun b _ => key b, ?_⟩
  have h2 : ∑ _b ∈ range k, ⌈(total : ℚ) / k⌉ ≤
      ∑ b ∈ range k, (Ctx.setupEps rd old total maxNode k eps relax).maxBw b :=
    Finset.sum_le_sum fun b _ => key b
  rw [Finset.sum_const, card_range, nsmul_eq_mul] at h2
  refine le_trans ?_ h2
  have hkq : (0 : ℚ) < k := by exact_mod_cast hk
  have h3 := Int.le_ceil ((total : ℚ) / k)
  rw [div_le_iff₀ hkq] at h3
  have h4 : (total : ℚ) ≤ (k : ℚ) * ⌈(total : ℚ) / k⌉ := by linarith
  exact_mod_cast h4

/-- **C20, no imbalance.**  With `epsilon = 0` the limits are exactly the weight of a perfectly balanced
block. -/
theorem C20_limits_zero_epsilon {rd : ℚ → ℚ} (h : Rounding rd) (old : Ctx) (total maxNode : Int) (k : Nat)
    (h0 : 0 ≤ total) (h1 : total ≤ 2 ^ 51) (hk : 0 < k) (hk2 : k ≤ 2 ^ 53) (b : Nat) :
    (Ctx.setupEps rd old total maxNode k 0 false).maxBw b = ⌈(total : ℚ) / k⌉ := by
  have hp := perfect_eq h h0 h1 hk hk2
  show ⌊rd (rd (1 + 0) * perfect rd total k)⌋ = _
  have h7 := h.int (m := 1) (by norm_num)
  simp only [Int.cast_one] at h7
  rw [add_zero, h7, one_mul, hp, h.int, Int.floor_intCast]
  have hkq : (0 : ℚ) < k := by exact_mod_cast hk
  have hc0 : 0 ≤ ⌈(total : ℚ) / k⌉ := Int.ceil_nonneg (div_nonneg (by exact_mod_cast h0) hkq.le)
  rw [abs_of_nonneg hc0]
  have h2 : (total : ℚ) / k ≤ total := div_le_self (by exact_mod_cast h0) (by exact_mod_cast hk)
  have h3 := Int.ceil_mono h2
  rw [Int.ceil_intCast] at h3
  omega

/-- Rounding as done by IEEE doubles near `2^53`, exact elsewhere. -/
def exRd (x : ℚ) : ℚ := if 2 ^ 53 ≤ x ∧ x ≤ 2 ^ 53 + 1 then 2 ^ 53 else x

theorem exRd_rounding : Rounding exRd ∧ exRd (2 ^ 53 + 1) = 2 ^ 53 := by
  refine ⟨⟨?_, ?_⟩, by unfold exRd; norm_num⟩
  · intro x y hxy
    unfold exRd
    split <;> split <;> rename_i h1 h2
    · exact le_refl _
    · linarith [h1.1]
    · by_contra hcon
      exact h1 ⟨(not_le.1 hcon).le, hxy.trans h2.2⟩
    · exact hxy
  · intro m j hm _
    unfold exRd
    split
    · rename_i h
      apply le_antisymm h.1
      have h1 : (1 : ℚ) ≤ 2 ^ j := one_le_pow₀ (by norm_num)
      have h2 : (m : ℚ) ≤ 2 ^ 53 := by
        have := (le_abs_self m).trans hm
        exact_mod_cast this
      rw [div_le_iff₀ (by linarith)]
      nlinarith
    · rfl

/-- **C20, finding.**  With 64-bit weights the limits can be too small for the graph: doubles round the
total weight `2^53 + 1` down, and the single block may only weigh `2^53`. -/
theorem C20_large_total_does_not_fit {rd : ℚ → ℚ} (h : Rounding rd) (hrd : rd (2 ^ 53 + 1) = 2 ^ 53)
    (old : Ctx) (maxNode : Int) :
    (Ctx.setupEps rd old (2 ^ 53 + 1) maxNode 1 0 false).maxBw 0 = 2 ^ 53 := by
  show ⌊rd (rd (1 + 0) * perfect rd (2 ^ 53 + 1) 1)⌋ = _
  have h7 := h.int (m := 1) (by norm_num)
  simp only [Int.cast_one] at h7
  have h8 := h.int (m := 2 ^ 53) (by norm_num)
  have h9 : perfect rd (2 ^ 53 + 1) 1 = 2 ^ 53 := by
    unfold perfect
    have hrd2 : rd ((2 ^ 53 + 1 : Int) : ℚ) = ((2 ^ 53 : Int) : ℚ) := by
      rw [show ((2 ^ 53 + 1 : Int) : ℚ) = 2 ^ 53 + 1 by norm_num, hrd]; norm_num
    rw [hrd2, Nat.cast_one, h7, div_one, h8, Int.ceil_intCast]
  rw [add_zero, h7, one_mul, h9, h8, Int.floor_intCast]

/-- **C20, finding.**  `epsilon()` keeps the value of an earlier set-up when explicit limits are given. -/
theorem C20_explicit_limits_keep_old_epsilon (rd : ℚ → ℚ) (old : Ctx) (total maxNode : Int) (k k' : Nat)
    (eps : ℚ) (mb : Nat → Int) (relax : Bool) :
    (Ctx.setupVector rd (Ctx.setupEps rd old total maxNode k eps relax) total maxNode k' mb relax).epsilon =
      eps := rfl

/-- Non-vacuity: 7 weight units in 3 blocks with 10% imbalance. -/
example (old : Ctx) : ∀ b, b < 3 → ⌈((7 : Int) : ℚ) / (3 : Nat)⌉ ≤ (Ctx.setupEps exRd old 7 1 3 (1 / 10) true).maxBw b :=
  (C20_limits_leave_room_partial exRd_rounding.1 old 7 1 3 (1 / 10) true (by norm_num) (by norm_num) (by norm_num)
    (by norm_num) (by norm_num)).1

end Verif.Metrics
