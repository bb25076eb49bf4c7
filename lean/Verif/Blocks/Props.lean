import Verif.Blocks.Lemmas

/-!
# Properties C04 and C44: block tree arithmetic of deep multilevel partitioning
-/

namespace Verif.Blocks.Props
open Verif.Math

/-- The final block IDs of a half-open range `[a, b)`. -/
def indices (a b : Nat) : List Nat := List.range' a (b - a)

/-! ## C04 -/

theorem flatMap_sums (f : Nat → Nat) (n : Nat) :
    (List.range n).flatMap (fun b => indices (sumTo f b) (sumTo f b + f b))
      = List.range (sumTo f n) := by
  induction n with
  | zero => rfl
  | succ n ih =>
    rw [List.range_succ, List.flatMap_append, ih]
    simp only [List.flatMap_cons, List.flatMap_nil, List.append_nil, sumTo, indices]
    rw [Nat.add_sub_cancel_left, List.range_eq_range', List.range_eq_range']
    have h := List.range'_append_1 (s := 0) (m := sumTo f n) (n := f n)
    simpa using h

/-- **C04 (tiling).** If the current partition has `2^l` blocks (`1 ≤ l`, below the 32-bit limit)
and `k ≥ 2^l` final blocks are wanted, then for every current block the first final block and the
first invalid final block are defined, and concatenating the ranges `[first, firstInvalid)` in block
order gives exactly the final blocks `0, …, k-1`. -/
theorem C04_final_ranges_tile (k l : Nat) (hl0 : 0 < l) (hl : l < 31) (hk : 2 ^ l ≤ k) :
    ∃ fst inv : Nat → Nat,
      (∀ b, b < 2 ^ l → firstSubBlock? b (2 ^ l) k = some (fst b) ∧
        firstInvalidSubBlock? b (2 ^ l) k = some (inv b)) ∧
      (List.range (2 ^ l)).flatMap (fun b => indices (fst b) (inv b)) = List.range k := by
  refine ⟨fun b => sumTo (treeLabel k l) b, fun b => sumTo (treeLabel k l) b + treeLabel k l b, ?_, ?_⟩
  · intro b hb
    refine ⟨firstSubBlock_eq k l b hl hb, ?_⟩
    simp [firstInvalidSubBlock?, firstSubBlock_eq k l b hl hb, finalK_eq k l b hl hl0 hk hb]
  · rw [flatMap_sums, sumTo_total]

/-- **C04 (sizes).** Every current block gets `⌊k/2^l⌋` or `⌊k/2^l⌋ + 1` final blocks (the latter only
if `2^l` does not divide `k`), hence at least one. -/
theorem C04_final_k_balanced (k l b : Nat) (hl0 : 0 < l) (hl : l < 31) (hk : 2 ^ l ≤ k)
    (hb : b < 2 ^ l) :
    ∃ x, finalK? b (2 ^ l) k = some x ∧ 1 ≤ x ∧
      (x = k / 2 ^ l ∨ (x = k / 2 ^ l + 1 ∧ ¬ 2 ^ l ∣ k)) := by
  refine ⟨_, finalK_eq k l b hl hl0 hk hb, ?_⟩
  have h1 : 1 ≤ k / 2 ^ l := (Nat.one_le_div_iff (Nat.two_pow_pos l)).2 hk
  rw [treeLabel_eq k l b hb]
  split
  · rename_i h
    refine ⟨by omega, Or.inr ⟨rfl, ?_⟩⟩
    intro hd
    rw [Nat.mod_eq_zero_of_dvd hd] at h; omega
  · exact ⟨by omega, Or.inl rfl⟩

/-- **C04 (refinement of ranges).** Doubling the number of blocks splits block `b` into `2b` and
`2b+1`: their final ranges are adjacent, start where the range of `b` starts and end where it ends,
and the left child gets the larger half. -/
theorem C04_children_split_range (k l b : Nat) (hl0 : 0 < l) (hl : l + 1 < 31)
    (hk : 2 ^ (l + 1) ≤ k) (hb : b < 2 ^ l) :
    ∃ s m e, firstSubBlock? b (2 ^ l) k = some s ∧ firstInvalidSubBlock? b (2 ^ l) k = some e ∧
      firstSubBlock? (2 * b) (2 ^ (l + 1)) k = some s ∧
      firstInvalidSubBlock? (2 * b) (2 ^ (l + 1)) k = some m ∧
      firstSubBlock? (2 * b + 1) (2 ^ (l + 1)) k = some m ∧
      firstInvalidSubBlock? (2 * b + 1) (2 ^ (l + 1)) k = some e ∧
      m - s = (e - s + 1) / 2 ∧ s < m ∧ m < e := by
  have hk' : 2 ^ l ≤ k := by
    have := Nat.pow_le_pow_right (n := 2) (by omega) (show l ≤ l + 1 by omega); omega
  have hb0 : 2 * b < 2 ^ (l + 1) := by rw [Nat.pow_succ]; omega
  have hb1 : 2 * b + 1 < 2 ^ (l + 1) := by rw [Nat.pow_succ]; omega
  have F := firstSubBlock_eq k l b (by omega) hb
  have K := finalK_eq k l b (by omega) hl0 hk' hb
  have F0 := firstSubBlock_eq k (l + 1) (2 * b) hl hb0
  have K0 := finalK_eq k (l + 1) (2 * b) hl (by omega) hk hb0
  have F1 := firstSubBlock_eq k (l + 1) (2 * b + 1) hl hb1
  have K1 := finalK_eq k (l + 1) (2 * b + 1) hl (by omega) hk hb1
  have h1 : 2 ≤ treeLabel k l b := by
    rw [treeLabel_eq k l b hb]
    have : 2 ≤ k / 2 ^ l := by
      rw [Nat.le_div_iff_mul_le (Nat.two_pow_pos l)]; rw [Nat.pow_succ] at hk; omega
    omega
  have t0 : treeLabel k (l + 1) (2 * b) = (treeLabel k l b + 1) / 2 := by
    simp only [treeLabel]; rw [if_pos (by omega), show 2 * b / 2 = b by omega]
  have t1 : treeLabel k (l + 1) (2 * b + 1) = treeLabel k l b / 2 := by
    simp only [treeLabel]; rw [if_neg (by omega), show (2 * b + 1) / 2 = b by omega]
  rw [sumTo_double] at F0
  rw [sumTo_bit] at F1
  rw [t0] at K0
  rw [t1] at K1
  refine ⟨_, sumTo (treeLabel k l) b + (treeLabel k l b + 1) / 2,
    sumTo (treeLabel k l) b + treeLabel k l b, F, ?_, F0, ?_, F1, ?_, ?_⟩
  · simp [firstInvalidSubBlock?, F, K]
  · simp [firstInvalidSubBlock?, F0, K0]
  · simp only [firstInvalidSubBlock?, F1, K1, Option.bind_eq_bind, Option.bind_some,
      Option.some.injEq]; omega
  · omega

/-- **C04 (root call).** For a single current block (`current_k = 1`) and more than one final block,
the code shifts a 32-bit value by 32, which is undefined behaviour. -/
theorem C04_root_shift_undefined (k : Nat) (hk : k ≠ 1) : finalK? 0 1 k = none := by
  unfold finalK?
  rw [if_neg (fun h => hk h.symm), floorLog2_eq (by decide) (by decide)]
  have : Nat.log2 1 = 0 := by decide
  simp [this]

/-- **C04 (root call, outcome).** The shifted operand is 0 for block 0, so any hardware shift result
gives the intended value `k`: for every shift amount `s` the code's expression evaluates to `k`. -/
theorem C04_root_value_shift_independent (k s : Nat) :
    (k >>> 0) + (if reverse32 0 >>> s < (k &&& (2 ^ 0 - 1)) then 1 else 0) = k := by
  have : reverse32 0 = 0 := by decide
  simp [this]

/-- **C04 does not extend to block counts that are not powers of two**: for 5 current and 5 final
blocks, block 4 is reported to start at final block 3, although it must start at 4. -/
theorem C04_not_power_of_two_fails :
    firstSubBlock? 4 5 5 = some 3 ∧ finalK? 4 5 5 = some 1 ∧ firstSubBlock? 3 5 5 = some 3 := by
  decide +kernel

-- non-vacuity: 4 current blocks, 7 final blocks: sizes 2,2,2,1
example : (0 < 2 ∧ 2 < 31 ∧ 2 ^ 2 ≤ 7) ∧
    [0, 1, 2, 3].map (fun b => finalK? b 4 7) = [some 2, some 2, some 2, some 1] ∧
    [0, 1, 2, 3].map (fun b => firstSubBlock? b 4 7) = [some 0, some 2, some 4, some 6] := by
  decide +kernel

/-! ## C44 -/

/-- **C44 (range).** For `k ≥ 2` and contraction limit `C ≥ 1`, the number of blocks chosen for a graph
with `n` nodes is defined, between 2 and `k`, and a power of two unless it is `k` itself. -/
theorem C44_k_for_n_range (n c k : Nat) (hc : 1 ≤ c) (hk : 2 ≤ k) (hn : n < 2 ^ 31) :
    ∃ x, kForN? n c k = some x ∧ 2 ≤ x ∧ x ≤ k ∧ (x = k ∨ ∃ e, x = 2 ^ e) := by
  unfold kForN?
  split
  · exact ⟨2, rfl, by omega, by omega, Or.inr ⟨1, rfl⟩⟩
  · rename_i h
    rw [if_neg (by omega)]
    have hne : n / c ≠ 0 := by
      have : 1 ≤ n / c := (Nat.one_le_div_iff (by omega)).2 (by omega)
      omega
    have hlt : n / c ≤ 2 ^ 31 := Nat.le_trans (Nat.div_le_self n c) (by omega)
    obtain ⟨l, hl, h1, h2⟩ := ceilLog2_spec (w := 32) hne (by omega)
    have hl31 := h2 31 hlt
    rw [hl]
    simp only [Option.bind_eq_bind, Option.bind_some]
    rw [if_neg (by omega), if_neg (by omega)]
    refine ⟨_, rfl, ?_⟩
    split
    · exact ⟨by omega, by omega, Or.inr ⟨1, rfl⟩⟩
    · split
      · exact ⟨by omega, by omega, Or.inl rfl⟩
      · exact ⟨by omega, by omega, Or.inr ⟨l, rfl⟩⟩

/-- **C44 (monotone).** More nodes never lead to fewer blocks. -/
theorem C44_k_for_n_monotone (n m c k x y : Nat) (hc : 1 ≤ c) (hk : 2 ≤ k) (hm : m < 2 ^ 31)
    (hnm : n ≤ m) (hx : kForN? n c k = some x) (hy : kForN? m c k = some y) : x ≤ y := by
  unfold kForN? at hx hy
  have ev : ∀ q, ¬ q < 2 * c → q < 2 ^ 31 → ∃ l, ceilLog2? 32 (q / c) = some l ∧ q / c ≤ 2 ^ l ∧
      ∀ j, q / c ≤ 2 ^ j → l ≤ j := by
    intro q h hq
    have : 1 ≤ q / c := (Nat.one_le_div_iff (by omega)).2 (by omega)
    have hlt : q / c ≤ 2 ^ 31 := Nat.le_trans (Nat.div_le_self q c) (by omega)
    exact ceilLog2_spec (w := 32) (by omega) (by omega)
  by_cases h2 : m < 2 * c
  · rw [if_pos (by omega)] at hx
    rw [if_pos h2] at hy
    simp at hx hy; omega
  · rw [if_neg h2, if_neg (by omega)] at hy
    obtain ⟨l, hl, a1, a2⟩ := ev m h2 hm
    rw [hl] at hy
    have hl31 := a2 31 (Nat.le_trans (Nat.div_le_self m c) (by omega))
    simp only [Option.bind_eq_bind, Option.bind_some] at hy
    rw [if_neg (by omega), if_neg (by omega)] at hy
    simp only [Option.some.injEq] at hy
    by_cases h1 : n < 2 * c
    · rw [if_pos h1] at hx
      simp only [Option.some.injEq] at hx
      subst hx hy
      split
      · omega
      · split <;> omega
    · rw [if_neg h1, if_neg (by omega)] at hx
      obtain ⟨l', hl', b1, b2⟩ := ev n h1 (by omega)
      rw [hl'] at hx
      have hl31' := b2 31 (Nat.le_trans (Nat.div_le_self n c) (by omega))
      simp only [Option.bind_eq_bind, Option.bind_some] at hx
      rw [if_neg (by omega), if_neg (by omega)] at hx
      simp only [Option.some.injEq] at hx
      have hll : l' ≤ l := b2 l (Nat.le_trans (Nat.div_le_div_right hnm) a1)
      have := Nat.pow_le_pow_right (n := 2) (by omega) hll
      subst hx hy
      split <;> split <;> (try split) <;> (try split) <;> omega

/-- Repeated extension: the sequence of block counts starting from `c`. -/
def extendSteps (k : Nat) : Nat → Nat → Nat
  | 0, c => c
  | s + 1, c => extendSteps k s (nextK c k)

theorem nextK_eq {c k : Nat} (hck : c ≤ k) (hk : k < 2 ^ 31) : nextK c k = min (2 * c) k := by
  unfold nextK
  rw [Nat.mod_eq_of_lt (by omega), Nat.mul_comm]

/-- **C44 (growth).** A step doubles the number of blocks or reaches `k`; it strictly grows below `k`
and stays at `k` once there. -/
theorem C44_next_k_grows (c k : Nat) (hc : 1 ≤ c) (hck : c ≤ k) (hk : k < 2 ^ 31) :
    (nextK c k = 2 * c ∨ nextK c k = k) ∧ nextK c k ≤ k ∧ (c < k → c < nextK c k) ∧
      (c = k → nextK c k = k) := by
  rw [nextK_eq hck hk]; omega

/-- **C44 (termination).** From any start `1 ≤ c ≤ k`, after `s` extension steps with `k ≤ c * 2^s` the
partition has exactly `k` blocks (so at most `⌈log2 k⌉` steps are needed). -/
theorem C44_extension_reaches_k (c k s : Nat) (hc : 1 ≤ c) (hck : c ≤ k) (hk : k < 2 ^ 31)
    (hs : k ≤ c * 2 ^ s) : extendSteps k s c = k := by
  induction s generalizing c with
  | zero => simp at hs; simp [extendSteps]; omega
  | succ s ih =>
    have h := nextK_eq hck hk
    simp only [extendSteps]
    apply ih
    · omega
    · omega
    · rw [Nat.pow_succ] at hs
      rw [h]
      rcases Nat.le_total (2 * c) k with h' | h'
      · rw [Nat.min_eq_left h', Nat.mul_comm 2 c, Nat.mul_assoc, Nat.mul_comm 2]; exact hs
      · rw [Nat.min_eq_right h']
        exact Nat.le_mul_of_pos_right _ (Nat.two_pow_pos s)

/-- **C44 (degenerate k).** For `k = 1` and a graph of at least `2C` nodes the code calls `std::clamp`
with `lo > hi`, which is undefined. -/
theorem C44_k_one_undefined : kForN? 4000 2000 1 = none := by decide +kernel

/-- **C44 (group count).** With at least one thread and `C ≥ 1`, the number of copies is defined and
between 1 and the number of threads. -/
theorem C44_num_copies_range (n c threads : Nat) (conv : Bool) (hc : 1 ≤ c) (ht : 1 ≤ threads) :
    ∃ x, numCopies? n c conv threads = some x ∧ 1 ≤ x ∧ x ≤ threads := by
  unfold numCopies?
  rw [if_neg (by omega)]
  split
  · exact ⟨_, rfl, ht, Nat.le_refl _⟩
  · rw [if_neg (by omega)]
    simp only
    split
    · exact ⟨1, rfl, by omega, ht⟩
    · rename_i h
      refine ⟨_, rfl, ?_, Nat.div_le_self _ _⟩
      exact (Nat.one_le_div_iff (Nat.two_pow_pos _)).2 (by omega)

example : kForN? 30000 2000 11 = some 11 ∧ kForN? 30000 2000 64 = some 16 ∧
    extendSteps 11 4 1 = 11 := by decide +kernel

end Verif.Blocks.Props
