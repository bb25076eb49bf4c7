import Verif.Limits.Props

/-!
# C58, continued: the final limits of an imbalance, and the limits of a bipartition
-/

namespace Verif.Limits
open Verif.Math Verif.Blocks Verif.Subgraph Verif.Metrics Finset

/-- The computed `(1 + (m / c - 1)) * c` is `m` up to a relative error of `6 * 2^-53`. -/
theorem roundtrip {rd : ℚ → ℚ} (h : DoubleRounding rd) {m c : ℚ} (hc : 0 < c) (hm : c ≤ m) (hr : 1 ≤ rd (m / c)) :
    |rd (rd (1 + rd (rd (m / c) - 1)) * c) - m| ≤ m * (6 / 2 ^ 53) := by
  have hm0 : 0 < m := lt_of_lt_of_le hc hm
  have hmc : 0 ≤ m / c := by positivity
  have u1 := h.upper hmc
  have l1 := h.lower hmc
  generalize rd (m / c) = r at *
  have hr1 : 0 ≤ r - 1 := by linarith
  have u2 := h.upper hr1
  have l2 := h.lower hr1
  have n2 := h.nonneg hr1
  generalize rd (r - 1) = e at *
  have he : 0 ≤ 1 + e := by linarith
  have u3 := h.upper he
  have l3 := h.lower he
  have n3 := h.nonneg he
  generalize rd (1 + e) = D at *
  have hD : 0 ≤ D * c := by positivity
  have u4 := h.upper hD
  have l4 := h.lower hD
  generalize rd (D * c) = y at *
  have hx : m / c * c = m := by field_simp
  generalize m / c = x at *
  have hr0 : 0 ≤ r := by linarith
  -- bounds on `D`
  have e1 : 1 + e ≤ r * (1 + 1 / 2 ^ 53) := by nlinarith
  have e2 : r * (1 - 1 / 2 ^ 53) ≤ 1 + e := by nlinarith
  have d1 : D ≤ x * ((1 + 1 / 2 ^ 53) * (1 + 1 / 2 ^ 53) * (1 + 1 / 2 ^ 53)) := by nlinarith
  have d2 : x * ((1 - 1 / 2 ^ 53) * (1 - 1 / 2 ^ 53) * (1 - 1 / 2 ^ 53)) ≤ D := by nlinarith
  have d3 : D * c ≤ m * ((1 + 1 / 2 ^ 53) * (1 + 1 / 2 ^ 53) * (1 + 1 / 2 ^ 53)) := by
    have := mul_le_mul_of_nonneg_right d1 hc.le
    rw [← hx]; linarith
  have d4 : m * ((1 - 1 / 2 ^ 53) * (1 - 1 / 2 ^ 53) * (1 - 1 / 2 ^ 53)) ≤ D * c := by
    have := mul_le_mul_of_nonneg_right d2 hc.le
    rw [← hx]; linarith
  rw [abs_le]
  constructor
  · have : m * ((1 - 1 / 2 ^ 53) * (1 - 1 / 2 ^ 53) * (1 - 1 / 2 ^ 53)) * (1 - 1 / 2 ^ 53) ≤ y :=
      le_trans (mul_le_mul_of_nonneg_right d4 (by norm_num)) l4
    have h5 : m * (1 - 6 / 2 ^ 53) ≤ m * ((1 - 1 / 2 ^ 53) * (1 - 1 / 2 ^ 53) * (1 - 1 / 2 ^ 53)) * (1 - 1 / 2 ^ 53) := by
      rw [mul_assoc]; exact mul_le_mul_of_nonneg_left (by norm_num) hm0.le
    linarith
  · have : y ≤ m * ((1 + 1 / 2 ^ 53) * (1 + 1 / 2 ^ 53) * (1 + 1 / 2 ^ 53)) * (1 + 1 / 2 ^ 53) :=
      le_trans u4 (mul_le_mul_of_nonneg_right d3 (by norm_num))
    have h5 : m * ((1 + 1 / 2 ^ 53) * (1 + 1 / 2 ^ 53) * (1 + 1 / 2 ^ 53)) * (1 + 1 / 2 ^ 53) ≤ m * (1 + 6 / 2 ^ 53) := by
      rw [mul_assoc]; exact mul_le_mul_of_nonneg_left (by norm_num) hm0.le
    linarith

theorem floor_close {x y : ℚ} (h : |x - y| < 1) : |⌊x⌋ - ⌊y⌋| ≤ 1 := by
  have h1 := abs_lt.1 h
  have a1 := Int.floor_le x
  have a2 := Int.lt_floor_add_one x
  have b1 := Int.floor_le y
  have b2 := Int.lt_floor_add_one y
  rw [abs_le]
  constructor
  · have : ((⌊y⌋ : ℤ) : ℚ) < ((⌊x⌋ + 2 : ℤ) : ℚ) := by rw [Int.cast_add]; norm_num; linarith
    have : ⌊y⌋ < ⌊x⌋ + 2 := by exact_mod_cast this
    omega
  · have : ((⌊x⌋ : ℤ) : ℚ) < ((⌊y⌋ + 2 : ℤ) : ℚ) := by rw [Int.cast_add]; norm_num; linarith
    have : ⌊x⌋ < ⌊y⌋ + 2 := by exact_mod_cast this
    omega

/-- The limits of the final blocks on the graph without isolated nodes: `m` is the caller's limit before truncation,
`c` the perfectly balanced weight of a block of this graph. -/
theorem final_limit {rd : ℚ → ℚ} {input : PCtx} (h : Rounding rd) (hi : FromImbalance rd input) {b : Nat}
    (hb : b < input.k) : ∃ m c : ℚ, 0 < c ∧ c ≤ m ∧ 1 ≤ rd (m / c) ∧ input.maxBw.getD b 0 = ⌊m⌋ ∧
      input.totalUnrelaxed? rd b (b + 1) = some ⌊rd (rd (1 + rd (rd (m / c) - 1)) * c)⌋ := by
  obtain ⟨eps, h1, h2, h3⟩ := hi.inferred h
  have hkq : (0 : ℚ) < input.k := by exact_mod_cast hi.k
  have hne : rd (input.k : ℚ) ≠ 0 := by rw [hi.rdk h]; exact hkq.ne'
  have h0 := hi.total
  have hle := hi.less
  have hw := hi.width
  have htq : (0 : ℚ) < input.total := by exact_mod_cast h0
  have hcpos : 0 < ⌈(input.total : ℚ) / input.k⌉ := Int.ceil_pos.2 (by positivity)
  have hcle : ⌈(input.total : ℚ) / input.k⌉ ≤ ⌈(input.originalTotal : ℚ) / input.k⌉ :=
    Int.ceil_le_ceil (div_le_div_of_nonneg_right (by exact_mod_cast hle) hkq.le)
  have hk1 : (1 : ℚ) ≤ input.k := by exact_mod_cast hi.k
  have hco : ⌈(input.originalTotal : ℚ) / input.k⌉ ≤ input.originalTotal := by
    apply Int.ceil_le.2
    rw [div_le_iff₀ hkq]
    have : (0 : ℚ) ≤ input.originalTotal := by exact_mod_cast (by omega : (0 : Int) ≤ input.originalTotal)
    nlinarith
  have hmx := mx_ge h hi.eps (x := ⌈(input.originalTotal : ℚ) / input.k⌉) (by omega) (by omega)
  refine ⟨rd (rd (1 + input.epsilon) * ⌈(input.originalTotal : ℚ) / input.k⌉), ⌈(input.total : ℚ) / input.k⌉,
    by exact_mod_cast hcpos, le_trans (Int.cast_le.2 hcle) hmx, ?_, ?_, ?_⟩
  · have h1' := h.int (m := 1) (by norm_num)
    simp only [Int.cast_one] at h1'
    refine le_trans h1'.ge (h.mono _ _ ?_)
    rw [le_div_iff₀ (by exact_mod_cast hcpos), one_mul]
    exact le_trans (Int.cast_le.2 hcle) hmx
  · rw [hi.limits b hb]
    unfold perfect
    rw [hi.perf h (by omega) hw]
  · unfold PCtx.totalUnrelaxed?
    rw [if_pos hi.uniform, h1]
    simp only [Option.bind_eq_bind, Option.bind_some, div_some hne]
    rw [show b + 1 - b = 1 by omega, Nat.cast_one, one_mul, hi.perf h h0.le (by omega), ← h3]

/-- **C58 (the final limits of an imbalance).** On the input graph, the limits for `k` blocks are those of the
caller, up to one unit of weight; with exact arithmetic they are the same. -/
theorem C58_imbalance_limits_final {rd : ℚ → ℚ} (h : DoubleRounding rd) {input : PCtx} (hi : FromImbalance rd input)
    (hm : ∀ b, b < input.k → input.maxBw.getD b 0 < 2 ^ 49) {g : GInfo} (hn : g.n = input.n) :
    ∃ c, createKway? rd input g input.k = some c ∧ c.k = input.k ∧ c.maxBw = c.unrelaxed ∧ c.maxBw.length = input.k ∧
      ∀ b, b < input.k → |c.maxBw.getD b 0 - input.maxBw.getD b 0| ≤ 1 := by
  have hex : ∀ b, ∃ x : Int, b < input.k → input.totalUnrelaxed? rd b (b + 1) = some x ∧ |x - input.maxBw.getD b 0| ≤ 1 := by
    intro b
    by_cases hb : b < input.k
    · obtain ⟨m, c, hc, hcm, hr, h1, h2⟩ := final_limit h.toRounding hi hb
      refine ⟨_, fun _ => ⟨h2, ?_⟩⟩
      rw [h1]
      apply floor_close
      refine lt_of_le_of_lt (roundtrip h hc hcm hr) ?_
      have h3 := hm b hb
      rw [h1] at h3
      have h4 : m < 2 ^ 49 := by
        have := Int.floor_lt.1 h3
        exact_mod_cast this
      calc m * (6 / 2 ^ 53) ≤ 2 ^ 49 * (6 / 2 ^ 53) := mul_le_mul_of_nonneg_right h4.le (by norm_num)
        _ < 1 := by norm_num
    · exact ⟨0, fun h => absurd h hb⟩
  choose F hF using hex
  unfold createKway?
  have hloop := kwayLoop_top (rd := rd) (input := input) (F := F) (fun b hb => (hF b hb).1) input.k 0 (by omega)
  rw [List.range_eq_range', hloop]
  simp only [Option.bind_eq_bind, Option.bind_some, hn, ne_eq, not_true_eq_false, decide_false, setup_plain]
  refine ⟨_, rfl, by simp, rfl, by simp, ?_⟩
  intro b hb
  show |((List.range' 0 input.k).map F).getD b 0 - _| ≤ 1
  rw [List.getD_eq_getElem?_getD, List.getElem?_map, List.getElem?_range' hb]
  simpa using (hF b hb).2

/-- With exact arithmetic, the limits for `k` blocks of the input graph are those of the caller. -/
theorem C58_imbalance_final_exact_partial {input : PCtx} (hi : FromImbalance id input) (hid : Rounding id) {g : GInfo}
    (hn : g.n = input.n) : ∃ c, createKway? id input g input.k = some c ∧ c.maxBw = input.maxBw := by
  have hF : ∀ b, b < input.k → input.totalUnrelaxed? id b (b + 1) = some (input.maxBw.getD b 0) := by
    intro b hb
    obtain ⟨m, c, hc, _, _, h1, h2⟩ := final_limit hid hi hb
    rw [h2, h1]
    simp only [id]
    rw [show (1 + (m / c - 1)) * c = m by field_simp; ring]
  unfold createKway?
  have hloop := kwayLoop_top (rd := id) (input := input) hF input.k 0 (by omega)
  rw [List.range_eq_range', hloop]
  simp only [Option.bind_eq_bind, Option.bind_some, hn, ne_eq, not_true_eq_false, decide_false, setup_plain]
  refine ⟨_, rfl, ?_⟩
  show (List.range' 0 input.k).map (fun b => input.maxBw.getD b 0) = input.maxBw
  apply List.ext_getElem
  · simp [hi.lengths]
  · intro i h1 h2
    simp [List.getD_eq_getElem?_getD, h2]

/-! ## Bipartitions -/

/-- The limits of the two sides are the sums of the limits of their final blocks. -/
theorem twoway_eq {input : PCtx} (hlen : input.maxBw.length = input.k)
    (hu : input.uniform = true → ∃ x, ∀ b, b < input.k → input.maxBw.getD b 0 = x) {l b : Nat} (hk : 2 ^ l ≤ input.k)
    (hk2 : input.k < 2 ^ 31) (hb : b < 2 ^ l) (hnum : (finalRange input.k l b).1 + 2 ≤ (finalRange input.k l b).2) :
    twowayLimits? input b (2 ^ l) = some
      (sumRange (fun f => input.maxBw.getD f 0) (finalRange input.k (l + 1) (2 * b)),
       sumRange (fun f => input.maxBw.getD f 0) (finalRange input.k (l + 1) (2 * b + 1))) ∧
    finalKRoot? b (2 ^ l) input.k = some ((finalRange input.k l b).2 - (finalRange input.k l b).1) := by
  have hl31 : l < 31 := (Nat.pow_lt_pow_iff_right (by decide)).1 (Nat.lt_of_le_of_lt hk hk2)
  have hle := finalRange_le (k := input.k) hb
  have hfirst := firstSubBlock_eq input.k l b hl31 hb
  have hroot := finalKRoot_eq hk2 hk hb
  have e0 : finalRange input.k (l + 1) (2 * b) = ((finalRange input.k l b).1,
      (finalRange input.k l b).1 + ((finalRange input.k l b).2 - (finalRange input.k l b).1 + 1) / 2) := by
    rw [finalRange, show 2 * b / 2 = b by omega, if_pos (by omega)]
  have e1 : finalRange input.k (l + 1) (2 * b + 1) = ((finalRange input.k l b).1 +
      ((finalRange input.k l b).2 - (finalRange input.k l b).1 + 1) / 2, (finalRange input.k l b).2) := by
    rw [finalRange, show (2 * b + 1) / 2 = b by omega, if_neg (by omega)]
  have hr := finalRange_eq input.k l b hb
  have hr1 : sumTo (treeLabel input.k l) b = (finalRange input.k l b).1 := by rw [hr]
  have hr2 : treeLabel input.k l b = (finalRange input.k l b).2 - (finalRange input.k l b).1 := by rw [hr]; simp
  rw [hr1] at hfirst
  rw [hr2] at hroot
  rw [e0, e1]
  generalize finalRange input.k l b = r at *
  obtain ⟨lo, hi⟩ := r
  simp only at *
  refine ⟨?_, hroot⟩
  have htot : ∀ x y, x < y → y ≤ input.k →
      input.totalMax? x y = some (sumRange (fun f => input.maxBw.getD f 0) (x, y)) := by
    intro x y hxy hy
    unfold PCtx.totalMax?
    by_cases hun : input.uniform = true
    · obtain ⟨z, hz⟩ := hu hun
      rw [if_pos hun, List.getElem?_eq_getElem (by omega)]
      have h1 : input.maxBw[x]'(by omega) = z := by
        have := hz x (by omega)
        rwa [List.getD_eq_getElem?_getD, List.getElem?_eq_getElem (by omega)] at this
      have h2 : sumRange (fun f => input.maxBw.getD f 0) (x, y) = ∑ f ∈ Ico x y, z := by
        apply Finset.sum_congr rfl
        intro f hf
        exact hz f (by have := (Finset.mem_Ico.1 hf).2; omega)
      rw [h2, Finset.sum_const, Nat.card_Ico, h1]
      simp [mul_comm]
    · rw [if_neg hun]
      exact slice_eq hxy.le (by omega)
  unfold twowayLimits?
  rw [hfirst, hroot]
  simp only [Option.bind_eq_bind, Option.bind_some, splitIntegral]
  rw [htot _ _ (by omega) (by omega), show lo + (hi - lo) = hi by omega, htot _ _ (by omega) (by omega)]
  rfl

theorem sumRange_nonneg {L : List Int} (h : ∀ x ∈ L, 0 ≤ x) (r : Nat × Nat) : 0 ≤ sumRange (fun f => L.getD f 0) r := by
  apply Finset.sum_nonneg
  intro f _
  rw [List.getD_eq_getElem?_getD]
  cases hf : L[f]? with
  | none => exact le_refl _
  | some x => exact h _ (List.mem_of_getElem? hf)

/-- **C58 (bipartitions).** Bisecting block `b` of `2^l` blocks, the limit of each half is the sum of the caller's limits
of the final blocks in this half, and the relaxed limits can be met if the block is not heavier than twice the limit
for this block. -/
theorem C58_twoway {rd : ℚ → ℚ} (h : DoubleRounding rd) (pow : ℚ → ℚ → ℚ) {input : PCtx} {adaptive : Bool}
    (ha : (input.uniform && adaptive) = false) (hlen : input.maxBw.length = input.k)
    (hu : input.uniform = true → ∃ x, ∀ b, b < input.k → input.maxBw.getD b 0 = x)
    (hpos : ∀ x ∈ input.maxBw, 0 ≤ x) {l b : Nat} (hk : 2 ^ l ≤ input.k) (hk2 : input.k < 2 ^ 31) (hb : b < 2 ^ l)
    (hnum : (finalRange input.k l b).1 + 2 ≤ (finalRange input.k l b).2) {g : GInfo} (hW : 0 < g.total)
    (hW2 : g.total ≤ 2 ^ 49)
    (hroom : g.total ≤ 2 * sumRange (fun f => input.maxBw.getD f 0) (finalRange input.k l b)) :
    ∃ c, createTwoway? rd pow input adaptive b (2 ^ l) g = some c ∧ c.k = 2 ∧
      c.unrelaxed = [sumRange (fun f => input.maxBw.getD f 0) (finalRange input.k (l + 1) (2 * b)),
        sumRange (fun f => input.maxBw.getD f 0) (finalRange input.k (l + 1) (2 * b + 1))] ∧
      (∀ s, c.unrelaxed.getD s 0 ≤ c.maxBw.getD s 0) ∧ c.maxBw.length = 2 ∧
      Satisfiable c.maxBw g.total g.maxNode := by
  obtain ⟨h1, h2⟩ := twoway_eq hlen hu hk hk2 hb hnum
  unfold createTwoway?
  rw [h1, h2]
  simp only [Option.bind_eq_bind, Option.bind_some, ha, Bool.false_eq_true, if_false]
  have hsplit : sumRange (fun f => input.maxBw.getD f 0) (finalRange input.k (l + 1) (2 * b)) +
      sumRange (fun f => input.maxBw.getD f 0) (finalRange input.k (l + 1) (2 * b + 1)) =
      sumRange (fun f => input.maxBw.getD f 0) (finalRange input.k l b) := by
    rw [finalRange, finalRange, show 2 * b / 2 = b by omega, if_pos (by omega), show (2 * b + 1) / 2 = b by omega,
      if_neg (by omega)]
    exact Finset.sum_Ico_consecutive _ (by simp) (by simp only; omega)
  obtain ⟨c, c1, c2, c3, c4, c5, c6⟩ := relaxed_satisfiable h (-1) (g := g)
    (limits := [sumRange (fun f => input.maxBw.getD f 0) (finalRange input.k (l + 1) (2 * b)),
        sumRange (fun f => input.maxBw.getD f 0) (finalRange input.k (l + 1) (2 * b + 1))])
    (by
      intro x hx
      rcases List.mem_cons.1 hx with rfl | hx
      · exact sumRange_nonneg hpos _
      · rw [List.mem_singleton.1 hx]; exact sumRange_nonneg hpos _) hW hW2
    (by rw [List.sum_cons, List.sum_cons, List.sum_nil, add_zero, hsplit]; exact hroom)
  refine ⟨c, c1, c2, c3, ?_, by rw [c4, c2]; rfl, c6⟩
  intro s; rw [c3]; exact c5 s

theorem adapted_sum {rd : ℚ → ℚ} (h : DoubleRounding rd) {W l0 l1 : Int} (hW : 0 < W) (h0 : 0 < l0)
    (h1 : 0 < l1) {a : ℚ} (ha : rd (1 / 10000) ≤ a) :
    let t := rd (rd (1 + a) * W)
    let r (x : Int) := rd (rd x / rd ((l0 + l1 : Int) : ℚ))
    0 ≤ ⌊rd (t * r l0)⌋ ∧ 0 ≤ ⌊rd (t * r l1)⌋ ∧ W - 1 ≤ ⌊rd (t * r l0)⌋ + ⌊rd (t * r l1)⌋ := by
  intro t r
  have hWq : (0 : ℚ) < W := by exact_mod_cast hW
  have h0q : (0 : ℚ) < l0 := by exact_mod_cast h0
  have h1q : (0 : ℚ) < l1 := by exact_mod_cast h1
  have hSq : (0 : ℚ) < ((l0 + l1 : Int) : ℚ) := by rw [Int.cast_add]; linarith
  have ha0 : (1 : ℚ) / 10000 * (1 - 1 / 2 ^ 53) ≤ a := le_trans (h.lower (by norm_num)) ha
  have ha1 : (99 : ℚ) / 1000000 ≤ a := le_trans (by norm_num) ha0
  have hA := h.lower (x := 1 + a) (by linarith)
  have hA' : (1 : ℚ) + 98 / 1000000 ≤ rd (1 + a) := by
    refine le_trans ?_ hA
    have : (1 + 99 / 1000000 : ℚ) * (1 - 1 / 2 ^ 53) ≤ (1 + a) * (1 - 1 / 2 ^ 53) :=
      mul_le_mul_of_nonneg_right (by linarith) (by norm_num)
    refine le_trans ?_ this
    norm_num
  have ht : (W : ℚ) * (1 + 97 / 1000000) ≤ t := by
    have h2 := h.lower (x := rd (1 + a) * W) (by have : (0 : ℚ) ≤ rd (1 + a) := by linarith
                                                 positivity)
    refine le_trans ?_ h2
    have h3 : (1 + 98 / 1000000 : ℚ) * W * (1 - 1 / 2 ^ 53) ≤ rd (1 + a) * W * (1 - 1 / 2 ^ 53) :=
      mul_le_mul_of_nonneg_right (mul_le_mul_of_nonneg_right hA' hWq.le) (by norm_num)
    refine le_trans ?_ h3
    nlinarith
  have ht0 : 0 ≤ t := le_trans (by positivity) ht
  have hS0 := h.pos hSq
  have hS1 := h.upper hSq.le
  have hr : ∀ x : Int, 0 < x → (x : ℚ) / ((l0 + l1 : Int) : ℚ) * (1 - 4 / 2 ^ 53) ≤ r x := by
    intro x hx
    have hxq : (0 : ℚ) < x := by exact_mod_cast hx
    have e1 := h.lower hxq.le
    have e2 := h.pos hxq
    have e3 := h.lower (x := rd x / rd ((l0 + l1 : Int) : ℚ)) (by positivity)
    refine le_trans ?_ e3
    have e4 : (x : ℚ) / ((l0 + l1 : Int) : ℚ) * ((1 - 1 / 2 ^ 53) / (1 + 1 / 2 ^ 53)) ≤ rd x / rd ((l0 + l1 : Int) : ℚ) := by
      rw [div_mul_div_comm]
      exact div_le_div₀ e2.le e1 hS0 hS1
    have e5 : (x : ℚ) / ((l0 + l1 : Int) : ℚ) * ((1 - 1 / 2 ^ 53) / (1 + 1 / 2 ^ 53)) * (1 - 1 / 2 ^ 53) ≤
        rd x / rd ((l0 + l1 : Int) : ℚ) * (1 - 1 / 2 ^ 53) := mul_le_mul_of_nonneg_right e4 (by norm_num)
    refine le_trans ?_ e5
    rw [mul_assoc]
    exact mul_le_mul_of_nonneg_left (by norm_num) (by positivity)
  have hp : ∀ x : Int, 0 < x → (W : ℚ) * (x / ((l0 + l1 : Int) : ℚ)) * (1 + 96 / 1000000) ≤ rd (t * r x) := by
    intro x hx
    have hxq : (0 : ℚ) < x := by exact_mod_cast hx
    have e0 : (0 : ℚ) ≤ x / ((l0 + l1 : Int) : ℚ) := by positivity
    have e1 := hr x hx
    have e2 : 0 ≤ r x := le_trans (mul_nonneg e0 (by norm_num)) e1
    have e3 := h.lower (x := t * r x) (mul_nonneg ht0 e2)
    refine le_trans ?_ e3
    have e4 : (W : ℚ) * (1 + 97 / 1000000) * ((x : ℚ) / ((l0 + l1 : Int) : ℚ) * (1 - 4 / 2 ^ 53)) ≤ t * r x :=
      mul_le_mul ht e1 (mul_nonneg e0 (by norm_num)) ht0
    have e5 := mul_le_mul_of_nonneg_right e4 (show (0 : ℚ) ≤ 1 - 1 / 2 ^ 53 by norm_num)
    refine le_trans ?_ e5
    have e6 : (0 : ℚ) ≤ W * (x / ((l0 + l1 : Int) : ℚ)) := mul_nonneg hWq.le e0
    generalize (x : ℚ) / ((l0 + l1 : Int) : ℚ) = q at *
    have : (W : ℚ) * q * (1 + 96 / 1000000) ≤ W * q * ((1 + 97 / 1000000) * (1 - 4 / 2 ^ 53) * (1 - 1 / 2 ^ 53)) :=
      mul_le_mul_of_nonneg_left (by norm_num) e6
    linarith
  have p0 := hp l0 h0
  have p1 := hp l1 h1
  have hsum : (W : ℚ) * (l0 / ((l0 + l1 : Int) : ℚ)) + W * (l1 / ((l0 + l1 : Int) : ℚ)) = W := by
    rw [← mul_add, ← add_div, ← Int.cast_add, div_self hSq.ne', mul_one]
  have n0 : (0 : ℚ) ≤ (W : ℚ) * (l0 / ((l0 + l1 : Int) : ℚ)) := by positivity
  have n1 : (0 : ℚ) ≤ (W : ℚ) * (l1 / ((l0 + l1 : Int) : ℚ)) := by positivity
  generalize (W : ℚ) * (l0 / ((l0 + l1 : Int) : ℚ)) = A at *
  generalize (W : ℚ) * (l1 / ((l0 + l1 : Int) : ℚ)) = B at *
  generalize rd (t * r l0) = X at *
  generalize rd (t * r l1) = Y at *
  refine ⟨Int.floor_nonneg.2 (by linarith), Int.floor_nonneg.2 (by linarith), ?_⟩
  have f0 := Int.lt_floor_add_one X
  have f1 := Int.lt_floor_add_one Y
  have : ((W : Int) : ℚ) < ((⌊X⌋ + ⌊Y⌋ + 2 : Int) : ℚ) := by
    rw [Int.cast_add, Int.cast_add]; norm_num; linarith
  have : W < ⌊X⌋ + ⌊Y⌋ + 2 := by exact_mod_cast this
  omega

/-- **C58 (bipartitions with adapted imbalance).** For a block of weight at least two, the adapted limits are defined, leave
room for all but one unit of the weight, and the relaxed ones can be met, whatever `std::pow` returns. -/
theorem C58_twoway_adaptive_partial {rd : ℚ → ℚ} (h : DoubleRounding rd) (pow : ℚ → ℚ → ℚ) {input : PCtx}
    (hi : FromImbalance rd input) {l b : Nat} (hk : 2 ^ l ≤ input.k) (hk2 : input.k < 2 ^ 31) (hb : b < 2 ^ l)
    (hnum : (finalRange input.k l b).1 + 2 ≤ (finalRange input.k l b).2) {g : GInfo} (hW : 2 ≤ g.total)
    (hW2 : g.total ≤ 2 ^ 49) :
    ∃ c, createTwoway? rd pow input true b (2 ^ l) g = some c ∧ c.k = 2 ∧ g.total - 1 ≤ c.unrelaxed.sum ∧
      (∀ s, c.unrelaxed.getD s 0 ≤ c.maxBw.getD s 0) ∧ c.maxBw.length = 2 ∧
      Satisfiable c.maxBw g.total g.maxNode := by
  have hle := finalRange_le (k := input.k) hb
  obtain ⟨h1, h2⟩ := twoway_eq hi.lengths (fun _ => ⟨_, fun b hb => hi.limits b hb⟩) hk hk2 hb hnum
  -- the limits are positive
  have hx : ∀ f, f < input.k → 0 < input.maxBw.getD f 0 := by
    intro f hf
    obtain ⟨m, c, hc, hcm, hr, e1, e2⟩ := final_limit h.toRounding hi hf
    rw [hi.limits f hf]
    have h0 := hi.total
    have hle := hi.less
    have hw := hi.width
    have hkq : (0 : ℚ) < input.k := by exact_mod_cast hi.k
    have htq : (0 : ℚ) < input.originalTotal := by exact_mod_cast (by omega : (0 : Int) < input.originalTotal)
    have hcpos : 0 < ⌈(input.originalTotal : ℚ) / input.k⌉ := Int.ceil_pos.2 (by positivity)
    have hk1 : (1 : ℚ) ≤ input.k := by exact_mod_cast hi.k
    have hco : ⌈(input.originalTotal : ℚ) / input.k⌉ ≤ input.originalTotal := by
      apply Int.ceil_le.2
      rw [div_le_iff₀ hkq]
      nlinarith
    have hmx := mx_ge h.toRounding hi.eps (x := ⌈(input.originalTotal : ℚ) / input.k⌉) (by omega) (by omega)
    unfold perfect
    rw [hi.perf h.toRounding (by omega) hw]
    have := Int.le_floor.2 hmx
    omega
  have hsum : ∀ r : Nat × Nat, r.1 < r.2 → r.2 ≤ input.k → 0 < sumRange (fun f => input.maxBw.getD f 0) r := by
    intro r h1 h2
    apply Finset.sum_pos
    · intro f hf
      exact hx f (by have := (Finset.mem_Ico.1 hf).2; omega)
    · exact Finset.nonempty_Ico.2 h1
  have e0 : finalRange input.k (l + 1) (2 * b) = ((finalRange input.k l b).1,
      (finalRange input.k l b).1 + ((finalRange input.k l b).2 - (finalRange input.k l b).1 + 1) / 2) := by
    rw [finalRange, show 2 * b / 2 = b by omega, if_pos (by omega)]
  have e1 : finalRange input.k (l + 1) (2 * b + 1) = ((finalRange input.k l b).1 +
      ((finalRange input.k l b).2 - (finalRange input.k l b).1 + 1) / 2, (finalRange input.k l b).2) := by
    rw [finalRange, show (2 * b + 1) / 2 = b by omega, if_neg (by omega)]
  have p0 := hsum (finalRange input.k (l + 1) (2 * b)) (by rw [e0]; show _ < _ + _; omega) (by rw [e0]; show _ + _ ≤ _; omega)
  have p1 := hsum (finalRange input.k (l + 1) (2 * b + 1)) (by rw [e1]; show _ + _ < _; omega) (by rw [e1]; exact hle.2)
  generalize hl0 : sumRange (fun f => input.maxBw.getD f 0) (finalRange input.k (l + 1) (2 * b)) = l0 at *
  generalize hl1 : sumRange (fun f => input.maxBw.getD f 0) (finalRange input.k (l + 1) (2 * b + 1)) = l1 at *
  -- the divisions
  obtain ⟨ie, hie, _, _⟩ := hi.inferred h.toRounding
  have hkq : (0 : ℚ) < input.k := by exact_mod_cast hi.k
  have hne : rd (input.k : ℚ) ≠ 0 := by rw [hi.rdk h.toRounding]; exact hkq.ne'
  have hWq : (0 : ℚ) < g.total := by exact_mod_cast (by omega : (0 : Int) < g.total)
  have hgne : rd (g.total : ℚ) ≠ 0 := (h.pos hWq).ne'
  have hSne : rd ((l0 + l1 : Int) : ℚ) ≠ 0 := by
    have : (0 : ℚ) < ((l0 + l1 : Int) : ℚ) := by exact_mod_cast (by omega : (0 : Int) < l0 + l1)
    exact (h.pos this).ne'
  obtain ⟨lg, hlg, hlg0⟩ : ∃ lg, ceilLog2? 32 ((finalRange input.k l b).2 - (finalRange input.k l b).1) = some lg ∧ lg ≠ 0 := by
    have hn2 : 2 ≤ (finalRange input.k l b).2 - (finalRange input.k l b).1 := by omega
    have hn3 : (finalRange input.k l b).2 - (finalRange input.k l b).1 < 2 ^ 32 := by omega
    generalize (finalRange input.k l b).2 - (finalRange input.k l b).1 = m at *
    unfold ceilLog2?
    rw [floorLog2_eq (by omega) hn3]
    refine ⟨_, rfl, ?_⟩
    have : 1 ≤ m.log2 := (Nat.le_log2 (by omega)).2 (by omega)
    intro h0
    have h0 : m.log2 + 1 - (if m &&& (m - 1) = 0 then 1 else 0) = 0 := h0
    split at h0 <;> omega
  have hlgq : ((lg : Nat) : ℚ) ≠ 0 := by exact_mod_cast hlg0
  have hadapt : ∃ a, rd (1 / 10000) ≤ a ∧ adapt? rd pow input g ((finalRange input.k l b).2 - (finalRange input.k l b).1) (l0, l1) =
      some (⌊rd (rd (rd (1 + a) * g.total) * rd (rd l0 / rd ((l0 + l1 : Int) : ℚ)))⌋,
        ⌊rd (rd (rd (1 + a) * g.total) * rd (rd l1 / rd ((l0 + l1 : Int) : ℚ)))⌋) := by
    unfold adapt?
    rw [hie, hlg]
    simp only [Option.bind_eq_bind, Option.bind_some, div_some hne, div_some hgne, div_some hlgq, div_some hSne]
    exact ⟨_, le_max_right _ _, rfl⟩
  obtain ⟨a, ha, hadapt⟩ := hadapt
  obtain ⟨a0, a1, a2⟩ := adapted_sum h (W := g.total) (by omega) p0 p1 ha
  unfold createTwoway?
  rw [h1, h2]
  simp only [Option.bind_eq_bind, Option.bind_some, hi.uniform, Bool.and_self, if_true, hadapt]
  generalize ⌊rd (rd (rd (1 + a) * g.total) * rd (rd l0 / rd ((l0 + l1 : Int) : ℚ)))⌋ = X at *
  generalize ⌊rd (rd (rd (1 + a) * g.total) * rd (rd l1 / rd ((l0 + l1 : Int) : ℚ)))⌋ = Y at *
  obtain ⟨c, c1, c2, c3, c4, c5, c6⟩ := relaxed_satisfiable h (-1) (g := g) (limits := [X, Y])
    (by
      intro x hx
      rcases List.mem_cons.1 hx with rfl | hx
      · exact a0
      · rw [List.mem_singleton.1 hx]; exact a1) (by omega) hW2
    (by simp only [List.sum_cons, List.sum_nil]; omega)
  refine ⟨c, c1, c2, ?_, ?_, by rw [c4, c2]; rfl, c6⟩
  · rw [c3]; simp only [List.sum_cons, List.sum_nil]; omega
  · intro s; rw [c3]; exact c5 s

/-! ## What does not hold -/

/-- Four nodes of weight one, four blocks, imbalance 1/2. -/
def exInput : PCtx := ⟨4, 4, 4, 1, 4, [1, 1, 1, 1], [1, 1, 1, 1], 4, 1 / 2, true⟩

example : PCtx.setupEps? id (1 / 2) ⟨4, 4, 1⟩ 4 = some exInput := by
  norm_num [PCtx.setupEps?, PCtx.setup?, div?, exInput]; rfl

/-- With limits from an imbalance, the limit of an intermediate block may exceed the sum of the limits of its final
blocks: half of the blocks may weigh 3, its two final blocks 1 each.  A partition into two blocks may be feasible although
no refinement of it into four blocks is. -/
theorem C58_imbalance_sum_not : (createKway? id exInput ⟨4, 4, 1⟩ 2).map (·.maxBw) = some [3, 3] ∧
    sumRange (fun f => exInput.maxBw.getD f 0) (finalRange 4 1 0) = 2 := by
  decide +kernel

/-- One block: bisecting the graph reads the limit of a second block, which does not exist. -/
theorem C58_twoway_one_block_not (rd : ℚ → ℚ) (pow : ℚ → ℚ → ℚ) {input : PCtx} (hu : input.uniform = true)
    (hk : input.k = 1) (hlen : input.maxBw.length = 1) (adaptive : Bool) (g : GInfo) :
    createTwoway? rd pow input adaptive 0 1 g = none := by
  have h : twowayLimits? input 0 1 = none := by
    unfold twowayLimits? firstSubBlock? finalKRoot? PCtx.totalMax?
    simp [hk, hu, splitIntegral, List.getElem?_eq_none (show input.maxBw.length ≤ 1 by omega)]
  unfold createTwoway?
  rw [h]
  rfl

/-- More blocks than weight: 16 nodes of weight one, 64 blocks. -/
def exMany : PCtx := ⟨16, 16, 16, 1, 64, List.replicate 64 1, List.replicate 64 1, 64, 0, true⟩

example : (PCtx.setupEps? id 0 ⟨16, 16, 1⟩ 64).map (fun c => (c.maxBw, c.unrelaxed, c.k, c.totalMax)) =
    some (exMany.maxBw, exMany.unrelaxed, exMany.k, exMany.totalMax) := by decide +kernel

/-- A block that consists of a single node of weight one and has two final blocks: both adapted limits are zero, and
relaxing them divides zero by zero (the hypothesis `2 ≤ g.total` of `C58_twoway_adaptive_partial`). -/
theorem C58_twoway_adaptive_not : finalRange 64 5 0 = (0, 2) ∧
    adapt? id (fun x _ => x) exMany ⟨1, 1, 1⟩ 2 (1, 1) = some (0, 0) ∧
    createTwoway? id (fun x _ => x) exMany true 0 32 ⟨1, 1, 1⟩ = none ∧
    (createTwoway? id (fun x _ => x) exMany false 0 32 ⟨1, 1, 1⟩).map (·.maxBw) = some [2, 2] := by
  refine ⟨by decide, by decide +kernel, ?_, by decide +kernel⟩
  have : (createTwoway? id (fun x _ => x) exMany true 0 32 ⟨1, 1, 1⟩).isNone = true := by decide +kernel
  simpa using this

/-- An empty block: the adapted limit is infinity times zero. -/
theorem C58_twoway_empty_block_not {rd : ℚ → ℚ} (h0 : rd 0 = 0) (pow : ℚ → ℚ → ℚ) {input : PCtx}
    (hu : input.uniform = true) (b k : Nat) {g : GInfo} (hg : g.total = 0) :
    createTwoway? rd pow input true b k g = none := by
  have : ∀ num l, adapt? rd pow input g num l = none := by
    intro num l
    unfold adapt?
    have : ∀ x, div? rd x (rd (g.total : ℚ)) = none := by
      intro x; rw [hg, Int.cast_zero, h0]; rfl
    simp only [this, Option.bind_eq_bind, Option.bind_none, Option.bind_fun_none]
  unfold createTwoway?
  simp only [hu, Bool.and_self, if_true, this, Option.bind_eq_bind, Option.bind_none, Option.bind_fun_none]

/-! ## The hypotheses can be met -/

theorem id_double : DoubleRounding id where
  mono := fun _ _ h => h
  exact := fun _ _ _ _ => rfl
  rel := fun x => by simp only [id, sub_self, abs_zero]; positivity

/-- 1000 nodes of weight one to five, of which 100 are isolated and have been removed; seven blocks. -/
example : ∃ c, PCtx.setupEps? id (3 / 100) ⟨1000, 2500, 5⟩ 7 = some c ∧ FromImbalance id (c.remaining 900 2300) :=
  fromImbalance id_double.toRounding (by norm_num) (by decide) (by decide) (by decide) (by decide) (by decide) (by decide)

def exSeven : PCtx := ⟨900, 2500, 2300, 5, 7, List.replicate 7 368, List.replicate 7 368, 2576, 3 / 100, true⟩

example : (PCtx.setupEps? id (3 / 100) ⟨1000, 2500, 5⟩ 7).map (fun c => (c.maxBw, c.unrelaxed, c.k, c.totalMax)) =
    some (exSeven.maxBw, exSeven.unrelaxed, exSeven.k, exSeven.totalMax) := by decide +kernel

-- four blocks of the input graph, of a coarse graph; the final blocks
example : (createKway? id exSeven ⟨900, 2300, 5⟩ 4).map (·.maxBw) = some [737, 737, 737, 368] := by decide +kernel
example : (createKway? id exSeven ⟨100, 2300, 60⟩ 4).map (·.maxBw) = some [737, 737, 737, 389] := by decide +kernel
example : (createKway? id exSeven ⟨900, 2300, 5⟩ 7).map (·.maxBw) = some (List.replicate 7 368) := by decide +kernel
-- bipartitions of the graph and of the second of two blocks
example : (createTwoway? id (fun x _ => x) exSeven false 0 1 ⟨50, 2300, 100⟩).map (fun c => (c.unrelaxed, c.maxBw)) =
    some ([1472, 1104], [1472, 1104]) := by decide +kernel
example : (createTwoway? id (fun x _ => x) exSeven true 1 2 ⟨50, 900, 100⟩).map (fun c => (c.unrelaxed, c.maxBw)) =
    some ([736, 368], [736, 400]) := by decide +kernel

-- explicit limits
def exExplicit : PCtx := ⟨10, 20, 20, 3, 5, [6, 5, 4, 3, 5], [6, 5, 4, 3, 5], 23, 0, false⟩
example : (createKway? id exExplicit ⟨10, 20, 3⟩ 4).map (fun c => (c.unrelaxed, c.maxBw)) =
    some ([11, 4, 3, 5], [11, 4, 3, 5]) := by decide +kernel
example : (createKway? id exExplicit ⟨7, 20, 4⟩ 2).map (fun c => (c.unrelaxed, c.maxBw)) =
    some ([15, 8], [18, 11]) := by decide +kernel
example : (createTwoway? id (fun x _ => x) exExplicit true 0 2 ⟨7, 12, 4⟩).map (fun c => (c.unrelaxed, c.maxBw)) =
    some ([11, 4], [13, 8]) := by decide +kernel
example : (finalRange exExplicit.k 1 0) = (0, 3) ∧ (finalRange exExplicit.k 2 1) = (2, 3) := by decide

end Verif.Limits
