import Verif.Limits.Relax

/-!
# C58: the balance constraints of intermediate partitions
-/

namespace Verif.Limits
open Verif.Math Verif.Blocks Verif.Subgraph Verif.Metrics Finset

/-! ## Explicit limits -/

theorem finalRange_le {k l b : Nat} (hb : b < 2 ^ l) : (finalRange k l b).1 ≤ (finalRange k l b).2 ∧
    (finalRange k l b).2 ≤ k := by
  rw [finalRange_eq k l b hb]
  have h1 := sumTo_mono (treeLabel k l) (show b + 1 ≤ 2 ^ l by omega)
  rw [sumTo_total, sumTo] at h1
  exact ⟨by show sumTo _ _ ≤ _ + _; omega, h1⟩

/-- The final blocks of the blocks `0, …, 2^l - 1` follow one another and cover `0, …, k - 1`. -/
theorem sumRange_total (limit : Nat → Int) (k l : Nat) :
    ∑ b ∈ range (2 ^ l), sumRange limit (finalRange k l b) = ∑ f ∈ range k, limit f := by
  have key : ∀ m, m ≤ 2 ^ l → ∑ b ∈ range m, sumRange limit (finalRange k l b) =
      ∑ f ∈ range (sumTo (treeLabel k l) m), limit f := by
    intro m
    induction m with
    | zero => intro _; rfl
    | succ m ih =>
      intro hm
      rw [Finset.sum_range_succ, ih (by omega), finalRange_eq k l m (by omega)]
      unfold sumRange
      simp only [sumTo]
      rw [Finset.range_eq_Ico, Finset.range_eq_Ico, Finset.sum_Ico_consecutive _ (by omega) (by omega)]
  rw [key _ (Nat.le_refl _), sumTo_total]

theorem setup_fields {rd : ℚ → ℚ} {e : ℚ} {g : GInfo} {L : List Int} {relax : Bool} {c : PCtx}
    (h : PCtx.setup? rd e g L relax = some c) : c.k = L.length ∧ c.unrelaxed = L ∧ c.n = g.n ∧ c.total = g.total := by
  unfold PCtx.setup? at h
  cases relax with
  | true =>
    simp only [if_true, Option.bind_eq_bind] at h
    obtain ⟨e, _, h2⟩ := Option.bind_eq_some_iff.1 h
    obtain ⟨r, _, h3⟩ := Option.bind_eq_some_iff.1 h2
    cases h3
    exact ⟨rfl, rfl, rfl, rfl⟩
  | false =>
    rw [if_neg (by decide)] at h
    cases h
    exact ⟨rfl, rfl, rfl, rfl⟩

theorem setup_plain (rd : ℚ → ℚ) (e : ℚ) (g : GInfo) (L : List Int) :
    PCtx.setup? rd e g L false = some ⟨g.n, g.total, g.total, g.maxNode, L.length, L, L, L.sum, e, false⟩ := rfl

theorem sum_map_range (f : Nat → Int) (n : Nat) : ((List.range n).map f).sum = ∑ b ∈ range n, f b := by
  induction n with
  | zero => rfl
  | succ n ih => rw [List.range_succ, List.map_append, List.sum_append, Finset.sum_range_succ, ih]; simp

/-- The context of `2^l` blocks from its unrelaxed limits. -/
theorem createKway_eq {rd : ℚ → ℚ} {input : PCtx} {l : Nat} (hl0 : 0 < l) (hk : 2 ^ l ≤ input.k)
    (hk2 : input.k < 2 ^ 31) {F : Nat × Nat → Int}
    (hF : ∀ b, b < 2 ^ l → input.totalUnrelaxed? rd (finalRange input.k l b).1 (finalRange input.k l b).2 =
      some (F (finalRange input.k l b))) (g : GInfo) :
    createKway? rd input g (2 ^ l) = (PCtx.setup? rd (-1) g ((List.range (2 ^ l)).map fun b => F (finalRange input.k l b))
      (g.n ≠ input.n)).map fun c => { c with epsilon := if 0 < input.epsilon then input.epsilon else c.epsilon } := by
  have hl31 : l < 31 := (Nat.pow_lt_pow_iff_right (by decide)).1 (Nat.lt_of_le_of_lt hk hk2)
  have h1 := kwayLoop_eq hl0 hl31 hk hF (2 ^ l) 0 (by omega)
  rw [← List.range_eq_range', show sumTo (treeLabel input.k l) 0 = 0 from rfl] at h1
  unfold createKway?
  rw [h1, Option.bind_eq_bind, Option.bind_some]
  cases PCtx.setup? rd (-1) g ((List.range (2 ^ l)).map fun b => F (finalRange input.k l b)) (g.n ≠ input.n) <;> rfl

/-- **C58 (explicit limits).** The caller gave a limit for every block.  While there are `2^l` blocks, the limit of a
block is the sum of the limits of the final blocks into which it will be split; the limits of all blocks add up to the
limits of the caller.  On the input graph the limits are not relaxed. -/
theorem C58_explicit_limits {rd : ℚ → ℚ} {input : PCtx} (hu : input.uniform = false)
    (hlen : input.unrelaxed.length = input.k) {l : Nat} (hl0 : 0 < l) (hk : 2 ^ l ≤ input.k) (hk2 : input.k < 2 ^ 31)
    (g : GInfo) :
    (∀ c, createKway? rd input g (2 ^ l) = some c → c.k = 2 ^ l ∧
      c.unrelaxed = (List.range (2 ^ l)).map (fun b =>
        sumRange (fun f => input.unrelaxed.getD f 0) (finalRange input.k l b)) ∧
      c.unrelaxed.sum = input.unrelaxed.sum) ∧
    (g.n = input.n → ∃ c, createKway? rd input g (2 ^ l) = some c ∧ c.maxBw = c.unrelaxed) := by
  have hF : ∀ b, b < 2 ^ l → input.totalUnrelaxed? rd (finalRange input.k l b).1 (finalRange input.k l b).2 =
      some ((fun r => sumRange (fun f => input.unrelaxed.getD f 0) r) (finalRange input.k l b)) := by
    intro b hb
    unfold PCtx.totalUnrelaxed?
    rw [if_neg (by rw [hu]; decide)]
    have := finalRange_le (k := input.k) hb
    exact slice_eq this.1 (by rw [hlen]; exact this.2)
  rw [createKway_eq hl0 hk hk2 hF g]
  refine ⟨?_, ?_⟩
  · intro c hc
    obtain ⟨c', hc', rfl⟩ := Option.map_eq_some_iff.1 hc
    obtain ⟨h1, h2, _⟩ := setup_fields hc'
    refine ⟨by show c'.k = _; rw [h1, List.length_map, List.length_range], h2, ?_⟩
    show c'.unrelaxed.sum = _
    rw [h2, sum_map_range, sumRange_total, ← sum_getD, hlen]
  · intro hn
    rw [show decide (g.n ≠ input.n) = false by simpa using hn, setup_plain]
    exact ⟨_, rfl, rfl⟩

/-- **C58 (final number of blocks).** Once there are as many blocks as requested, the limits on the input graph are
exactly those of the caller (for every number of blocks). -/
theorem C58_explicit_limits_final {rd : ℚ → ℚ} {input : PCtx} (hu : input.uniform = false)
    (hlen : input.unrelaxed.length = input.k) {g : GInfo} (hn : g.n = input.n) :
    ∃ c, createKway? rd input g input.k = some c ∧ c.k = input.k ∧ c.maxBw = input.unrelaxed ∧
      c.unrelaxed = input.unrelaxed := by
  have hF : ∀ b, b < input.k → input.totalUnrelaxed? rd b (b + 1) = some (input.unrelaxed.getD b 0) := by
    intro b hb
    unfold PCtx.totalUnrelaxed?
    rw [if_neg (by rw [hu]; decide), slice_eq (by omega) (by omega)]
    unfold sumRange
    show some (∑ f ∈ Ico b (b + 1), _) = _
    rw [Nat.Ico_succ_singleton, Finset.sum_singleton]
  have h1 := kwayLoop_top hF input.k 0 (by omega)
  rw [← List.range_eq_range'] at h1
  have h2 : (List.range input.k).map (fun b => input.unrelaxed.getD b 0) = input.unrelaxed := by
    apply List.ext_getElem
    · simp [hlen]
    · intro i h3 h4
      rw [List.getElem_map, List.getElem_range, List.getD_eq_getElem?_getD, List.getElem?_eq_getElem h4]
      rfl
  unfold createKway?
  rw [h1, h2, show decide (g.n ≠ input.n) = false by simpa using hn, Option.bind_eq_bind, Option.bind_some, setup_plain]
  exact ⟨_, rfl, hlen, rfl, rfl⟩

/-! ## Limits from an imbalance -/

/-- What `compute_partition(k, epsilon, …)` sets up, possibly followed by the removal of isolated nodes. -/
structure FromImbalance (rd : ℚ → ℚ) (c : PCtx) : Prop where
  uniform : c.uniform = true
  eps : 0 ≤ c.epsilon
  k : 0 < c.k
  total : 0 < c.total
  less : c.total ≤ c.originalTotal
  width : c.originalTotal ≤ 2 ^ 51
  prod : (c.k : Int) * c.total ≤ 2 ^ 51
  lengths : c.maxBw.length = c.k
  limits : ∀ b, b < c.k → c.maxBw.getD b 0 = ⌊rd (rd (1 + c.epsilon) * perfect rd c.originalTotal c.k)⌋

theorem fromImbalance {rd : ℚ → ℚ} (h : Rounding rd) {e : ℚ} (he : 0 ≤ e) {g : GInfo} {k n : Nat} {total : Int}
    (hk : 0 < k) (hk2 : k ≤ 2 ^ 31) (h0 : 0 < total) (hle : total ≤ g.total) (hw : g.total ≤ 2 ^ 51)
    (hp : (k : Int) * total ≤ 2 ^ 51) :
    ∃ c, PCtx.setupEps? rd e g k = some c ∧ FromImbalance rd (c.remaining n total) := by
  have hrk : rd k = k := by
    have := h.int (m := (k : Int)) (by rw [abs_of_nonneg (by omega)]; omega)
    exact_mod_cast this
  have hne : rd (k : ℚ) ≠ 0 := by rw [hrk]; exact_mod_cast hk.ne'
  refine ⟨_, by unfold PCtx.setupEps?; rw [div_some hne]; rfl, ?_⟩
  constructor
  · rfl
  · exact he
  · show 0 < (List.replicate k _).length; rw [List.length_replicate]; exact hk
  · exact h0
  · exact hle
  · exact hw
  · show ((List.replicate k _).length : Int) * _ ≤ _; rw [List.length_replicate]; exact hp
  · rfl
  · intro b hb
    have hb : b < (List.replicate k (⌊rd (rd (1 + e) * ⌈rd (rd (g.total : ℚ) / rd k)⌉)⌋)).length := hb
    show (List.replicate k _).getD b 0 = ⌊rd (rd (1 + e) * perfect rd g.total (List.replicate k _).length)⌋
    rw [List.getD_eq_getElem?_getD, List.getElem?_eq_getElem hb, List.getElem_replicate, List.length_replicate]
    rfl

theorem mx_ge {rd : ℚ → ℚ} (h : Rounding rd) {e : ℚ} (he : 0 ≤ e) {x : Int} (hx : 0 ≤ x) (hx2 : x ≤ 2 ^ 53) :
    (x : ℚ) ≤ rd (rd (1 + e) * x) := by
  have hxq : (0 : ℚ) ≤ x := by exact_mod_cast hx
  have h1 := h.int (m := 1) (by norm_num)
  simp only [Int.cast_one] at h1
  have h2 : 1 ≤ rd (1 + e) := by rw [← h1]; exact h.mono _ _ (by linarith)
  have h3 := h.mono (x : ℚ) (rd (1 + e) * x) (by nlinarith)
  rwa [h.int (by rw [abs_of_nonneg hx]; omega)] at h3

section
variable {rd : ℚ → ℚ} {input : PCtx}

theorem FromImbalance.kle (hi : FromImbalance rd input) : (input.k : Int) ≤ 2 ^ 51 := by
  have h1 := hi.prod
  have h2 := hi.total
  have h3 : (input.k : Int) * 1 ≤ input.k * input.total := mul_le_mul_of_nonneg_left (by omega) (by omega)
  omega

theorem FromImbalance.rdk (h : Rounding rd) (hi : FromImbalance rd input) : rd (input.k : ℚ) = input.k := by
  have := h.int (m := (input.k : Int)) (by rw [abs_of_nonneg (by omega)]; have := hi.kle; omega)
  exact_mod_cast this

theorem FromImbalance.perf (h : Rounding rd) (hi : FromImbalance rd input) {x : Int} (h0 : 0 ≤ x) (h1 : x ≤ 2 ^ 51) :
    ⌈rd (rd (x : ℚ) / rd input.k)⌉ = ⌈(x : ℚ) / input.k⌉ :=
  perfect_eq h h0 h1 hi.k (by have := hi.kle; omega)

/-- The inferred imbalance is defined and not negative. -/
theorem FromImbalance.inferred (h : Rounding rd) (hi : FromImbalance rd input) :
    ∃ e, input.inferredEps? rd = some e ∧ 0 ≤ e ∧
      e = rd (rd (rd (rd (1 + input.epsilon) * ⌈(input.originalTotal : ℚ) / input.k⌉) / ⌈(input.total : ℚ) / input.k⌉) - 1) := by
  have hkq : (0 : ℚ) < input.k := by exact_mod_cast hi.k
  have hne : rd (input.k : ℚ) ≠ 0 := by rw [hi.rdk h]; exact hkq.ne'
  have h0 := hi.total
  have h1 := hi.less
  have h2 := hi.width
  have hp1 := hi.perf h (x := input.originalTotal) (by omega) h2
  have hp2 := hi.perf h (x := input.total) (by omega) (by omega)
  have htq : (0 : ℚ) < input.total := by exact_mod_cast h0
  have hc : 0 < ⌈(input.total : ℚ) / input.k⌉ := Int.ceil_pos.2 (div_pos htq hkq)
  have hcq : (0 : ℚ) < ((⌈(input.total : ℚ) / input.k⌉ : Int) : ℚ) := by exact_mod_cast hc
  refine ⟨_, ?_, ?_, rfl⟩
  · unfold PCtx.inferredEps? PCtx.inferEps?
    rw [if_pos hi.uniform, div_some hne, div_some hne]
    simp only [Option.bind_eq_bind, Option.bind_some, hp1, hp2]
    rw [div_some hcq.ne']
    rfl
  · have hle : ⌈(input.total : ℚ) / input.k⌉ ≤ ⌈(input.originalTotal : ℚ) / input.k⌉ := by
      apply Int.ceil_le_ceil
      rw [div_le_div_iff_of_pos_right hkq]
      exact_mod_cast h1
    have hup : ⌈(input.originalTotal : ℚ) / input.k⌉ ≤ input.originalTotal := by
      rw [Int.ceil_le, div_le_iff₀ hkq]
      have h3 : (1 : ℚ) ≤ input.k := by exact_mod_cast hi.k
      have h4 : (0 : ℚ) < input.originalTotal := by exact_mod_cast (by omega : 0 < input.originalTotal)
      nlinarith
    have h5 := mx_ge h hi.eps (x := ⌈(input.originalTotal : ℚ) / input.k⌉) (by omega) (by omega)
    have h6 : (1 : ℚ) ≤ rd (rd (1 + input.epsilon) * ⌈(input.originalTotal : ℚ) / input.k⌉) /
        ⌈(input.total : ℚ) / input.k⌉ := by
      rw [le_div_iff₀ hcq, one_mul]
      refine le_trans ?_ h5
      exact_mod_cast hle
    have h7 := h.int (m := 1) (by norm_num)
    simp only [Int.cast_one] at h7
    have h8 := h.mono _ _ h6
    rw [h7] at h8
    have h9 := h.int (m := 0) (by norm_num)
    simp only [Int.cast_zero] at h9
    rw [← h9]
    exact h.mono _ _ (by linarith)

/-- The limit of a block that will be split into `num` blocks. -/
theorem FromImbalance.limit (h : Rounding rd) (hi : FromImbalance rd input) : ∃ F : Nat → Int,
    ∀ b e, b ≤ e → e ≤ input.k → input.totalUnrelaxed? rd b e = some (F (e - b)) ∧
      ⌈(((e - b : Nat) : ℚ) * input.total) / input.k⌉ ≤ F (e - b) := by
  obtain ⟨eps, h1, h2, _⟩ := hi.inferred h
  have hkq : (0 : ℚ) < input.k := by exact_mod_cast hi.k
  have hne : rd (input.k : ℚ) ≠ 0 := by rw [hi.rdk h]; exact hkq.ne'
  refine ⟨fun num => ⌊rd (rd (1 + eps) * ⌈rd (rd ((num : ℚ) * input.total) / rd input.k)⌉)⌋, ?_⟩
  intro b e hbe he
  have h0 := hi.total
  have hprod : ((e - b : Nat) : Int) * input.total ≤ 2 ^ 51 :=
    le_trans (mul_le_mul_of_nonneg_right (by omega) (by omega)) hi.prod
  have hprod0 : 0 ≤ ((e - b : Nat) : Int) * input.total := mul_nonneg (by omega) (by omega)
  have hp := hi.perf h hprod0 hprod
  have hcast : (((((e - b : Nat) : Int) * input.total : Int)) : ℚ) = ((e - b : Nat) : ℚ) * input.total := by push_cast; rfl
  rw [hcast] at hp
  refine ⟨?_, ?_⟩
  · unfold PCtx.totalUnrelaxed?
    rw [if_pos hi.uniform, h1]
    simp only [Option.bind_eq_bind, Option.bind_some, div_some hne]
  · show _ ≤ ⌊rd (rd (1 + eps) * ⌈rd (rd (((e - b : Nat) : ℚ) * input.total) / rd input.k)⌉)⌋
    rw [hp]
    have hc0 : 0 ≤ ⌈((e - b : Nat) : ℚ) * input.total / input.k⌉ :=
      Int.ceil_nonneg (div_nonneg (by rw [← hcast]; exact_mod_cast hprod0) hkq.le)
    have hc1 : ⌈((e - b : Nat) : ℚ) * input.total / input.k⌉ ≤ ((e - b : Nat) : Int) * input.total := by
      rw [Int.ceil_le, div_le_iff₀ hkq, hcast]
      have h3 : (1 : ℚ) ≤ input.k := by exact_mod_cast hi.k
      have h4 : (0 : ℚ) ≤ ((e - b : Nat) : ℚ) * input.total := by rw [← hcast]; exact_mod_cast hprod0
      nlinarith
    rw [Int.le_floor]
    have h5 := mx_ge h h2 hc0 (by omega)
    exact_mod_cast h5

end

/-- **C58 (limits from an imbalance).** While there are `2^l` blocks, every block may weigh at least its share (in
proportion to its number of final blocks) of the graph, and the limits together leave room for all nodes, however
doubles are rounded.  On the input graph the limits are not relaxed. -/
theorem C58_imbalance_limits {rd : ℚ → ℚ} (h : Rounding rd) {input : PCtx} (hi : FromImbalance rd input) {l : Nat}
    (hl0 : 0 < l) (hk : 2 ^ l ≤ input.k) (hk2 : input.k < 2 ^ 31) (g : GInfo) :
    (∀ c, createKway? rd input g (2 ^ l) = some c → c.k = 2 ^ l ∧ c.unrelaxed.length = 2 ^ l ∧
      (∀ b, b < 2 ^ l → ⌈(((finalRange input.k l b).2 - (finalRange input.k l b).1 : Nat) : ℚ) * input.total / input.k⌉ ≤
        c.unrelaxed.getD b 0) ∧ input.total ≤ c.unrelaxed.sum) ∧
    (g.n = input.n → ∃ c, createKway? rd input g (2 ^ l) = some c ∧ c.maxBw = c.unrelaxed) := by
  obtain ⟨F, hF⟩ := hi.limit h
  have hF' : ∀ b, b < 2 ^ l → input.totalUnrelaxed? rd (finalRange input.k l b).1 (finalRange input.k l b).2 =
      some ((fun r : Nat × Nat => F (r.2 - r.1)) (finalRange input.k l b)) := by
    intro b hb
    have := finalRange_le (k := input.k) hb
    exact (hF _ _ this.1 this.2).1
  have hkq : (0 : ℚ) < input.k := by exact_mod_cast hi.k
  rw [createKway_eq (F := fun r : Nat × Nat => F (r.2 - r.1)) hl0 hk hk2 hF' g]
  refine ⟨?_, ?_⟩
  · intro c hc
    obtain ⟨c', hc', rfl⟩ := Option.map_eq_some_iff.1 hc
    obtain ⟨h1, h2, _⟩ := setup_fields hc'
    refine ⟨by show c'.k = _; rw [h1, List.length_map, List.length_range],
      by show c'.unrelaxed.length = _; rw [h2, List.length_map, List.length_range], ?_, ?_⟩
    · intro b hb
      show _ ≤ c'.unrelaxed.getD b 0
      have := finalRange_le (k := input.k) hb
      rw [h2, List.getD_eq_getElem?_getD, List.getElem?_map, List.getElem?_range hb]
      exact (hF _ _ this.1 this.2).2
    · show _ ≤ c'.unrelaxed.sum
      rw [h2, sum_map_range]
      have key : ∀ b ∈ range (2 ^ l), sumRange (fun _ => input.total) (finalRange input.k l b) ≤
          input.k * F ((finalRange input.k l b).2 - (finalRange input.k l b).1) := by
        intro b hb
        have h3 := finalRange_le (k := input.k) (mem_range.1 hb)
        have h4 := (hF _ _ h3.1 h3.2).2
        rw [Int.ceil_le, div_le_iff₀ hkq] at h4
        unfold sumRange
        rw [Finset.sum_const, Nat.card_Ico, nsmul_eq_mul, mul_comm (input.k : Int)]
        exact_mod_cast h4
      have h5 := Finset.sum_le_sum key
      rw [sumRange_total, Finset.sum_const, card_range, nsmul_eq_mul, ← Finset.mul_sum] at h5
      exact le_of_mul_le_mul_left h5 (by exact_mod_cast hi.k)
  · intro hn
    rw [show decide (g.n ≠ input.n) = false by simpa using hn, setup_plain]
    exact ⟨_, rfl, rfl⟩

/-! ## Relaxed limits can be met -/

theorem relaxed_satisfiable {rd : ℚ → ℚ} (h : DoubleRounding rd) (e : ℚ) {g : GInfo} {limits : List Int}
    (h0 : ∀ x ∈ limits, 0 ≤ x) (hW : 0 < g.total) (hW2 : g.total ≤ 2 ^ 49) (hWS : g.total ≤ 2 * limits.sum) :
    ∃ c, PCtx.setup? rd e g limits true = some c ∧ c.k = limits.length ∧ c.unrelaxed = limits ∧
      c.maxBw.length = c.k ∧ (∀ b, limits.getD b 0 ≤ c.maxBw.getD b 0) ∧ Satisfiable c.maxBw g.total g.maxNode := by
  obtain ⟨c, h1, h2, h3, _, _, h6, h7, h8⟩ := setup_relaxed h e h0 hW hW2 hWS
  refine ⟨c, h1, h2, h3, h6.trans h2.symm, h7, ?_⟩
  apply satisfiable
  · intro hn
    rw [hn] at h6
    have : limits = [] := List.length_eq_zero_iff.1 h6.symm
    rw [this] at hWS
    simp at hWS
    omega
  · rw [h6]; exact h8
  · intro x hx
    obtain ⟨i, hi, rfl⟩ := List.getElem_of_mem hx
    have h9 := h7 i
    rw [List.getD_eq_getElem?_getD, List.getD_eq_getElem?_getD, List.getElem?_eq_getElem hi,
      List.getElem?_eq_getElem (by omega)] at h9
    exact le_trans (h0 _ (List.getElem_mem (by omega : i < limits.length))) h9

/-- **C58 (constraints of coarse graphs can be met).** On every graph that is smaller than the input graph, the limits
for `2^l` blocks are defined, are at least those of the caller, and there is a partition that respects them, whatever
the nodes look like: with explicit limits that leave room for (half of) the graph ... -/
theorem C58_explicit_satisfiable {rd : ℚ → ℚ} (h : DoubleRounding rd) {input : PCtx} (hu : input.uniform = false)
    (hlen : input.unrelaxed.length = input.k) (hpos : ∀ x ∈ input.unrelaxed, 0 ≤ x) {l : Nat} (hl0 : 0 < l)
    (hk : 2 ^ l ≤ input.k) (hk2 : input.k < 2 ^ 31) {g : GInfo} (hn : g.n ≠ input.n) (hW : 0 < g.total)
    (hW2 : g.total ≤ 2 ^ 49) (hroom : g.total ≤ 2 * input.unrelaxed.sum) :
    ∃ c, createKway? rd input g (2 ^ l) = some c ∧ (∀ b, c.unrelaxed.getD b 0 ≤ c.maxBw.getD b 0) ∧
      c.maxBw.length = 2 ^ l ∧ Satisfiable c.maxBw g.total g.maxNode := by
  have hF : ∀ b, b < 2 ^ l → input.totalUnrelaxed? rd (finalRange input.k l b).1 (finalRange input.k l b).2 =
      some ((fun r => sumRange (fun f => input.unrelaxed.getD f 0) r) (finalRange input.k l b)) := by
    intro b hb
    unfold PCtx.totalUnrelaxed?
    rw [if_neg (by rw [hu]; decide)]
    have := finalRange_le (k := input.k) hb
    exact slice_eq this.1 (by rw [hlen]; exact this.2)
  rw [createKway_eq (F := fun r => sumRange (fun f => input.unrelaxed.getD f 0) r) hl0 hk hk2 hF g,
    show decide (g.n ≠ input.n) = true by simpa using hn]
  obtain ⟨c, h1, h2, h3, h4, h5, h6⟩ := relaxed_satisfiable h (-1) (g := g)
    (limits := (List.range (2 ^ l)).map fun b => sumRange (fun f => input.unrelaxed.getD f 0) (finalRange input.k l b))
    (by
      intro x hx
      obtain ⟨b, _, rfl⟩ := List.mem_map.1 hx
      apply Finset.sum_nonneg
      intro f _
      rw [List.getD_eq_getElem?_getD]
      cases hf : input.unrelaxed[f]? with
      | none => exact le_refl _
      | some x => exact hpos _ (List.mem_of_getElem? hf)) hW hW2
    (by rw [sum_map_range, sumRange_total, ← hlen, sum_getD]; exact hroom)
  rw [h1]
  refine ⟨_, rfl, ?_, ?_, h6⟩
  · intro b; show c.unrelaxed.getD b 0 ≤ _; rw [h3]; exact h5 b
  · show c.maxBw.length = _; rw [h4, h2, List.length_map, List.length_range]

/-- ... and with limits from an imbalance. -/
theorem C58_imbalance_satisfiable {rd : ℚ → ℚ} (h : DoubleRounding rd) {input : PCtx} (hi : FromImbalance rd input)
    {l : Nat} (hl0 : 0 < l) (hk : 2 ^ l ≤ input.k) (hk2 : input.k < 2 ^ 31) {g : GInfo} (hn : g.n ≠ input.n)
    (hW : g.total = input.total) (hW2 : g.total ≤ 2 ^ 49) :
    ∃ c, createKway? rd input g (2 ^ l) = some c ∧ (∀ b, c.unrelaxed.getD b 0 ≤ c.maxBw.getD b 0) ∧
      c.maxBw.length = 2 ^ l ∧ Satisfiable c.maxBw g.total g.maxNode := by
  obtain ⟨F, hF⟩ := hi.limit h.toRounding
  have hF' : ∀ b, b < 2 ^ l → input.totalUnrelaxed? rd (finalRange input.k l b).1 (finalRange input.k l b).2 =
      some ((fun r : Nat × Nat => F (r.2 - r.1)) (finalRange input.k l b)) := by
    intro b hb
    have := finalRange_le (k := input.k) hb
    exact (hF _ _ this.1 this.2).1
  have hkq : (0 : ℚ) < input.k := by exact_mod_cast hi.k
  have h0 := hi.total
  have hroom : input.total ≤ ((List.range (2 ^ l)).map fun b => F ((finalRange input.k l b).2 - (finalRange input.k l b).1)).sum := by
    obtain ⟨c, hc, _⟩ := (C58_imbalance_limits h.toRounding hi hl0 hk hk2 { g with n := input.n }).2 rfl
    have h1 := ((C58_imbalance_limits h.toRounding hi hl0 hk hk2 { g with n := input.n }).1 c hc).2.2.2
    rw [createKway_eq (F := fun r : Nat × Nat => F (r.2 - r.1)) hl0 hk hk2 hF'] at hc
    obtain ⟨c', hc', rfl⟩ := Option.map_eq_some_iff.1 hc
    rw [show ({ c' with epsilon := if 0 < input.epsilon then input.epsilon else c'.epsilon } : PCtx).unrelaxed =
      c'.unrelaxed from rfl, (setup_fields hc').2.1] at h1
    exact h1
  rw [createKway_eq (F := fun r : Nat × Nat => F (r.2 - r.1)) hl0 hk hk2 hF' g,
    show decide (g.n ≠ input.n) = true by simpa using hn]
  obtain ⟨c, h1, h2, h3, h4, h5, h6⟩ := relaxed_satisfiable h (-1) (g := g)
    (limits := (List.range (2 ^ l)).map fun b => F ((finalRange input.k l b).2 - (finalRange input.k l b).1))
    (by
      intro x hx
      obtain ⟨b, hb, rfl⟩ := List.mem_map.1 hx
      have := finalRange_le (k := input.k) (List.mem_range.1 hb)
      refine le_trans (Int.ceil_nonneg ?_) (hF _ _ this.1 this.2).2
      have htq : (0 : ℚ) < input.total := by exact_mod_cast h0
      positivity) (by omega) hW2 (by omega)
  rw [h1]
  refine ⟨_, rfl, ?_, ?_, h6⟩
  · intro b; show c.unrelaxed.getD b 0 ≤ _; rw [h3]; exact h5 b
  · show c.maxBw.length = _; rw [h4, h2, List.length_map, List.length_range]

end Verif.Limits
