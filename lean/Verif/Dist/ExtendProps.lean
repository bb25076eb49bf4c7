import Verif.Dist.Extend
import Verif.Math.Lemmas
import Mathlib.Tactic.NormNum

/-!
# C68: how many blocks distributed deep multilevel partitioning returns
-/

namespace Verif.Dist
open Verif.Math

/-! ## Lemmas -/

theorem extendLoop_ge {K d fuel c : Nat} (h : d ≤ c) : extendLoop K d fuel c = .done c := by
  cases fuel <;> exact if_neg (by omega)

/-- Between powers of two, the loop reaches the desired number. -/
theorem extendLoop_pow {t b : Nat} (ht : 1 ≤ t) (hfit : 2 ^ b * 2 ^ t < 2 ^ 32) : ∀ (fuel a : Nat), b ≤ a + fuel →
    extendLoop (2 ^ t) (2 ^ b) fuel (2 ^ a) = .done (2 ^ max a b)
  | 0, a, h => by rw [extendLoop_ge (Nat.pow_le_pow_right (by norm_num) (by omega)), Nat.max_eq_left (by omega)]
  | fuel + 1, a, h => by
    by_cases hab : b ≤ a
    · rw [extendLoop_ge (Nat.pow_le_pow_right (by norm_num) hab), Nat.max_eq_left hab]
    · have hlt : (2 : Nat) ^ a < 2 ^ b := Nat.pow_lt_pow_right (by norm_num) (by omega)
      have hstep : extendStep (2 ^ t) (2 ^ b) (2 ^ a) = 2 ^ min b (a + t) := by
        unfold extendStep
        rw [Nat.mod_eq_of_lt (Nat.lt_trans (Nat.mul_lt_mul_of_pos_right hlt (Nat.pow_pos (by norm_num))) hfit), ← Nat.pow_add]
        have hmin : min ((2 : Nat) ^ b) (2 ^ (a + t)) = 2 ^ min b (a + t) := by
          rcases Nat.le_total b (a + t) with h1 | h1
          · rw [Nat.min_eq_left h1, Nat.min_eq_left (Nat.pow_le_pow_right (by norm_num) h1)]
          · rw [Nat.min_eq_right h1, Nat.min_eq_right (Nat.pow_le_pow_right (by norm_num) h1)]
        rw [hmin]
        exact Nat.mul_div_cancel' (Nat.pow_dvd_pow 2 (by omega))
      show (if 2 ^ a < 2 ^ b then _ else _) = _
      rw [if_pos hlt, hstep, extendLoop_pow ht hfit fuel _ (by omega)]
      congr 2
      omega

/-- Every value of the loop is a multiple of the first one. -/
theorem extendLoop_dvd {K d : Nat} {m : Nat} : ∀ (fuel c r : Nat), m ∣ c → extendLoop K d fuel c = .done r → m ∣ r
  | 0, c, r, h, hr => by
    unfold extendLoop at hr
    by_cases hc : c < d
    · rw [if_pos hc] at hr; cases hr
    · rw [if_neg hc] at hr; injection hr with hr; exact hr ▸ h
  | fuel + 1, c, r, h, hr => by
    unfold extendLoop at hr
    by_cases hc : c < d
    · rw [if_pos hc] at hr
      exact extendLoop_dvd fuel _ r (Dvd.dvd.mul_right h _) hr
    · rw [if_neg hc] at hr; injection hr with hr; exact hr ▸ h

/-- No value of the loop is larger than the first one and the desired number. -/
theorem extendLoop_le {K d : Nat} : ∀ (fuel c r : Nat), extendLoop K d fuel c = .done r → r ≤ max c d ∧ d ≤ r
  | 0, c, r, hr => by
    unfold extendLoop at hr
    by_cases hc : c < d
    · rw [if_pos hc] at hr; cases hr
    · rw [if_neg hc] at hr; injection hr with hr; omega
  | fuel + 1, c, r, hr => by
    unfold extendLoop at hr
    by_cases hc : c < d
    · rw [if_pos hc] at hr
      have h1 : extendStep K d c ≤ d := by
        unfold extendStep
        exact Nat.le_trans (Nat.mul_div_le _ _) (Nat.min_le_left _ _)
      have := extendLoop_le fuel _ r hr
      omega
    · rw [if_neg hc] at hr; injection hr with hr; omega

theorem desired_le {k C inputN n d : Nat} (h : desiredBlocks? k C inputN n = some d) : d ≤ k := by
  unfold desiredBlocks? at h
  obtain ⟨c, _, rfl⟩ := Option.map_eq_some_iff.1 h
  split
  · exact Nat.le_refl _
  · exact Nat.min_le_left _ _

theorem desired_input {k C inputN d : Nat} (h : desiredBlocks? k C inputN inputN = some d) : d = k := by
  unfold desiredBlocks? at h
  obtain ⟨c, _, rfl⟩ := Option.map_eq_some_iff.1 h
  exact if_pos rfl

theorem ceil2_ok {x : Nat} (h0 : x ≠ 0) (h1 : x ≤ 2 ^ 31) : ∃ l, l ≤ 31 ∧ ceil2? 64 x = some (2 ^ l) := by
  obtain ⟨l, h2, h3, h4⟩ := ceilLog2_spec (w := 64) h0 (Nat.lt_of_le_of_lt h1 (by norm_num))
  have hl : l ≤ 31 := h4 31 h1
  refine ⟨l, hl, ?_⟩
  unfold ceil2?
  rw [h2, Option.bind_some, if_pos (by omega)]

/-- The levels preserve a property of the number of blocks that one extension preserves. -/
theorem extendLevels_inv {k K C inputN fuel : Nat} {P : Nat → Prop} (hP : ∀ n c r, P c → extendPartition k K C inputN fuel n c = .done r → P r) :
    ∀ (levels : List Nat) (c r : Nat), P c → extendLevels k K C inputN fuel levels c = .done r → P r
  | [], c, r, h, hr => by
    unfold extendLevels at hr
    injection hr with hr
    exact hr ▸ h
  | n :: levels, c, r, h, hr => by
    unfold extendLevels at hr
    cases e : extendPartition k K C inputN fuel n c with
    | done c' =>
      rw [e] at hr
      exact extendLevels_inv hP levels c' r (hP n c c' h e) hr
    | undefined => rw [e] at hr; cases hr
    | running => rw [e] at hr; cases hr

theorem extendPartition_done {k K C inputN fuel n c r : Nat} (h : extendPartition k K C inputN fuel n c = .done r) :
    ∃ d, desiredBlocks? k C inputN n = some d ∧ extendLoop K d fuel c = .done r := by
  unfold extendPartition at h
  cases e : desiredBlocks? k C inputN n with
  | none => rw [e] at h; cases h
  | some d => rw [e] at h; exact ⟨d, rfl, h⟩

theorem extendLevels_done {k K C inputN fuel n c c' : Nat} {levels : List Nat}
    (h : extendPartition k K C inputN fuel n c = .done c') :
    extendLevels k K C inputN fuel (n :: levels) c = extendLevels k K C inputN fuel levels c' := by
  show (match extendPartition k K C inputN fuel n c with
    | .done c' => extendLevels k K C inputN fuel levels c'
    | o => o) = _
  rw [h]

theorem extendLevels_running {k K C inputN fuel n c : Nat} {levels : List Nat}
    (h : extendPartition k K C inputN fuel n c = .running) :
    extendLevels k K C inputN fuel (n :: levels) c = .running := by
  show (match extendPartition k K C inputN fuel n c with
    | .done c' => extendLevels k K C inputN fuel levels c'
    | o => o) = _
  rw [h]

/-! ## Theorems -/

/-- **C68, the result, if there is one.**  Whatever the sizes of the graphs of the hierarchy are, a run that ends returns a
partition into exactly `k` blocks. -/
theorem C68_result_has_k_blocks (k K C inputN fuel : Nat) (levels : List Nat) (r : Nat)
    (hr : deepBlocks k K C inputN fuel levels = .done r) : r = k := by
  unfold deepBlocks at hr
  cases e : extendLevels k K C inputN fuel levels (min k K) with
  | undefined => rw [e] at hr; cases hr
  | running => rw [e] at hr; cases hr
  | done c =>
    rw [e] at hr
    have hc : c ≤ k := extendLevels_inv (P := fun c => c ≤ k) (fun n c r h h' => by
      obtain ⟨d, h1, h2⟩ := extendPartition_done h'
      have h3 := extendLoop_le _ _ _ h2
      have h4 := desired_le h1
      omega) levels _ c (Nat.min_le_left _ _) e
    by_cases hk : c ≠ k
    · replace hr : (if c ≠ k then extendPartition k K C inputN fuel inputN c else .done c) = .done r := hr
      rw [if_pos hk] at hr
      obtain ⟨d, h1, h2⟩ := extendPartition_done hr
      have h3 := extendLoop_le _ _ _ h2
      have h4 := desired_input h1
      omega
    · replace hr : (if c ≠ k then extendPartition k K C inputN fuel inputN c else .done c) = .done r := hr
      rw [if_neg hk] at hr
      injection hr with hr
      omega

/-- **C68, few blocks.**  If `k` is at most `K`, which is 128 by default, every run ends with `k` blocks.  The hierarchy consists of
graphs with at least as many nodes as the contraction limit (a graph is only coarsened if it is larger) and at most `2^31` times as
many. -/
theorem C68_few_blocks_end (k K C inputN : Nat) (levels : List Nat) (hk : k ≤ K)
    (hl : ∀ n ∈ levels, 1 ≤ n / C ∧ n / C ≤ 2 ^ 31) (fuel : Nat) :
    deepBlocks k K C inputN fuel levels = .done k := by
  have key : ∀ levels : List Nat, (∀ n ∈ levels, 1 ≤ n / C ∧ n / C ≤ 2 ^ 31) →
      extendLevels k K C inputN fuel levels k = .done k := by
    intro levels
    induction levels with
    | nil => intro _; rfl
    | cons n levels ih =>
      intro hl
      obtain ⟨h1, h2⟩ := hl n (List.mem_cons_self ..)
      obtain ⟨l, _, h4⟩ := ceil2_ok (x := n / C) (by omega) h2
      have h5 : desiredBlocks? k C inputN n = some (if inputN = n then k else min k (2 ^ l)) := by
        unfold desiredBlocks?; rw [h4]; rfl
      have h6 : extendPartition k K C inputN fuel n k = .done k := by
        unfold extendPartition
        rw [h5]
        exact extendLoop_ge (desired_le h5)
      unfold extendLevels
      rw [h6]
      exact ih fun n h => hl n (List.mem_cons_of_mem _ h)
  unfold deepBlocks
  rw [Nat.min_eq_left hk, key levels hl]
  exact if_neg (fun h => h rfl)

/-- **C68, powers of two.**  If `k` and `K` are powers of two, every run ends with `k` blocks.  Missing: other numbers of blocks
larger than `K`, for which the claim fails, see `C68_other_numbers_never_end`. -/
theorem C68_powers_of_two_end_partial (a t C inputN : Nat) (levels : List Nat) (ht : 1 ≤ t) (hfit : 2 ^ a * 2 ^ t < 2 ^ 32)
    (hl : ∀ n ∈ inputN :: levels, 1 ≤ n / C ∧ n / C ≤ 2 ^ 31) (fuel : Nat) (hf : a ≤ fuel) :
    deepBlocks (2 ^ a) (2 ^ t) C inputN fuel levels = .done (2 ^ a) := by
  have pmin : ∀ x y : Nat, min ((2 : Nat) ^ x) (2 ^ y) = 2 ^ min x y := by
    intro x y
    rcases Nat.le_total x y with h1 | h1
    · rw [Nat.min_eq_left h1, Nat.min_eq_left (Nat.pow_le_pow_right (by norm_num) h1)]
    · rw [Nat.min_eq_right h1, Nat.min_eq_right (Nat.pow_le_pow_right (by norm_num) h1)]
  have step : ∀ n c, (1 ≤ n / C ∧ n / C ≤ 2 ^ 31) → c ≤ a → ∃ b, b ≤ a ∧ (inputN = n → b = a) ∧
      extendPartition (2 ^ a) (2 ^ t) C inputN fuel n (2 ^ c) = .done (2 ^ max c b) := by
    intro n c hn hc
    obtain ⟨l, _, h4⟩ := ceil2_ok (x := n / C) (by omega) hn.2
    have h5 : desiredBlocks? (2 ^ a) C inputN n = some (2 ^ (if inputN = n then a else min a l)) := by
      unfold desiredBlocks?
      rw [h4]
      show some (if inputN = n then 2 ^ a else min (2 ^ a) (2 ^ l)) = _
      rw [pmin]
      by_cases h : inputN = n
      · rw [if_pos h, if_pos h]
      · rw [if_neg h, if_neg h]
    have h6 : (if inputN = n then a else min a l) ≤ a := by split <;> omega
    refine ⟨if inputN = n then a else min a l, h6, fun h => if_pos h, ?_⟩
    unfold extendPartition
    rw [h5]
    exact extendLoop_pow ht
      (Nat.lt_of_le_of_lt (Nat.mul_le_mul_right _ (Nat.pow_le_pow_right (by norm_num) h6)) hfit) fuel c (by omega)
  have key : ∀ (levels : List Nat) (c : Nat), (∀ n ∈ levels, 1 ≤ n / C ∧ n / C ≤ 2 ^ 31) → c ≤ a →
      ∃ c', c' ≤ a ∧ extendLevels (2 ^ a) (2 ^ t) C inputN fuel levels (2 ^ c) = .done (2 ^ c') := by
    intro levels
    induction levels with
    | nil => intro c _ hc; exact ⟨c, hc, rfl⟩
    | cons n levels ih =>
      intro c hl hc
      obtain ⟨b, hb, _, h⟩ := step n c (hl n (List.mem_cons_self ..)) hc
      obtain ⟨c', hc', h'⟩ := ih (max c b) (fun n h => hl n (List.mem_cons_of_mem _ h)) (by omega)
      refine ⟨c', hc', ?_⟩
      unfold extendLevels
      rw [h]
      exact h'
  obtain ⟨c', hc', h⟩ := key levels (min a t) (fun n h => hl n (List.mem_cons_of_mem _ h)) (by omega)
  unfold deepBlocks
  rw [pmin, h]
  show (if 2 ^ c' ≠ 2 ^ a then _ else _) = _
  by_cases hne : (2 : Nat) ^ c' = 2 ^ a
  · rw [if_neg (fun h => h hne), hne]
  · rw [if_pos hne]
    obtain ⟨b, _, hb, h⟩ := step inputN c' (hl _ (List.mem_cons_self ..)) hc'
    rw [h, hb rfl, Nat.max_eq_right hc']

example : deepBlocks 1024 128 2000 1000000 10 [30000, 1000000] = .done 1024 :=
  C68_powers_of_two_end_partial 10 7 2000 1000000 [30000, 1000000] (by decide) (by decide)
    (by decide) 10 (by decide)

example : deepBlocks 100 128 2000 1000000 10 [30000, 1000000] = .done 100 :=
  C68_few_blocks_end 100 128 2000 1000000 _ (by decide) (by decide) 10

/-- **C68 fails for most other numbers of blocks.**  If `k` is larger than `K` and no multiple of it, no run ever ends with a
result, whatever the graph and the hierarchy are and however many steps it takes. -/
theorem C68_other_numbers_never_end (k K C inputN : Nat) (levels : List Nat) (hk : K < k) (hnd : ¬ K ∣ k) (fuel r : Nat) :
    deepBlocks k K C inputN fuel levels ≠ .done r := by
  intro hr
  have hrk := C68_result_has_k_blocks k K C inputN fuel levels r hr
  subst hrk
  have hdvd : ∀ n c r', K ∣ c → extendPartition r K C inputN fuel n c = .done r' → K ∣ r' := by
    intro n c r' h h'
    obtain ⟨d, _, h2⟩ := extendPartition_done h'
    exact extendLoop_dvd _ _ _ h h2
  apply hnd
  unfold deepBlocks at hr
  cases e : extendLevels r K C inputN fuel levels (min r K) with
  | undefined => rw [e] at hr; cases hr
  | running => rw [e] at hr; cases hr
  | done c =>
    rw [e] at hr
    have hc : K ∣ c := extendLevels_inv (P := fun c => K ∣ c) hdvd levels _ c (by rw [Nat.min_eq_right (by omega)]) e
    by_cases hk : c ≠ r
    · replace hr : (if c ≠ r then extendPartition r K C inputN fuel inputN c else .done c) = .done r := hr
      rw [if_pos hk] at hr
      exact hdvd _ _ _ hc hr
    · have : c = r := Classical.byContradiction hk
      exact this ▸ hc

/-- With the default `K` of 128, a partition into 200 blocks does not end on a graph with a million nodes: the extension on the input
graph runs for ever. -/
theorem C68_two_hundred_blocks (fuel : Nat) : deepBlocks 200 128 2000 1000000 fuel [30000, 1000000] = .running := by
  have h1 : ∀ fuel, extendLoop 128 200 fuel 128 = .running := by
    intro fuel
    induction fuel with
    | zero => decide
    | succ fuel ih =>
      show (if 128 < 200 then extendLoop 128 200 fuel (extendStep 128 200 128) else _) = _
      rw [if_pos (by decide), show extendStep 128 200 128 = 128 by decide +kernel, ih]
  have h2 : extendPartition 200 128 2000 1000000 fuel 30000 128 = .done 128 := by
    unfold extendPartition
    rw [show desiredBlocks? 200 2000 1000000 30000 = some 16 by decide +kernel]
    exact extendLoop_ge (by decide)
  have h3 : extendPartition 200 128 2000 1000000 fuel 1000000 128 = .running := by
    unfold extendPartition
    rw [show desiredBlocks? 200 2000 1000000 1000000 = some 200 by decide +kernel]
    exact h1 fuel
  unfold deepBlocks
  rw [show min 200 128 = 128 by decide, extendLevels_done h2, extendLevels_running h3]

/-- Multiples of `K` can fail, too: `k = 384` with a level that asks for 256 blocks. -/
theorem C68_multiple_does_not_end (fuel : Nat) : deepBlocks 384 128 2000 2000000 fuel [500000, 2000000] ≠ .done 384 := by
  intro hr
  have h1 : ∀ fuel, extendLoop 128 384 fuel 256 = .running := by
    intro fuel
    induction fuel with
    | zero => decide
    | succ fuel ih =>
      show (if 256 < 384 then extendLoop 128 384 fuel (extendStep 128 384 256) else _) = _
      rw [if_pos (by decide), show extendStep 128 384 256 = 256 by decide +kernel, ih]
  have h2 : extendPartition 384 128 2000 2000000 fuel 500000 128 = .done 256 ∨
      extendPartition 384 128 2000 2000000 fuel 500000 128 = .running := by
    unfold extendPartition
    rw [show desiredBlocks? 384 2000 2000000 500000 = some 256 by decide +kernel]
    show extendLoop 128 256 fuel 128 = _ ∨ extendLoop 128 256 fuel 128 = _
    cases fuel with
    | zero => right; decide
    | succ fuel =>
      left
      show (if 128 < 256 then extendLoop 128 256 fuel (extendStep 128 256 128) else _) = _
      rw [if_pos (by decide), show extendStep 128 256 128 = 256 by decide +kernel]
      exact extendLoop_ge (Nat.le_refl _)
  have h3 : extendPartition 384 128 2000 2000000 fuel 2000000 256 = .running := by
    unfold extendPartition
    rw [show desiredBlocks? 384 2000 2000000 2000000 = some 384 by decide +kernel]
    exact h1 fuel
  unfold deepBlocks at hr
  rw [show min 384 128 = 128 by decide] at hr
  rcases h2 with h2 | h2
  · rw [extendLevels_done h2, extendLevels_running h3] at hr
    cases hr
  · rw [extendLevels_running h2] at hr
    cases hr

/-- A graph that is too small for coarsening and for its number of blocks: the logarithm of 0 is taken, whose value the compiler's
built-in function leaves undefined. -/
theorem C68_small_graph_undefined (k K C inputN fuel : Nat) (hk : K < k) (hn : inputN < C) :
    deepBlocks k K C inputN fuel [] = .undefined := by
  unfold deepBlocks extendLevels
  rw [Nat.min_eq_right (by omega)]
  show (if K ≠ k then extendPartition k K C inputN fuel inputN K else _) = _
  rw [if_pos (by omega)]
  unfold extendPartition desiredBlocks?
  rw [Nat.div_eq_of_lt hn]
  rfl

end Verif.Dist
