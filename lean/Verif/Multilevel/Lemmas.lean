import Verif.Multilevel.Spec
import Verif.Limits.Props
import Verif.Subgraph.Props
import Verif.Blocks.Props

/-!
# Lemmas: limits and extensions are defined
-/

namespace Verif.Multilevel
open Verif.Subgraph Verif.Subgraph.Props Verif.Blocks Verif.Blocks.Props Verif.Limits Verif.Metrics

theorem getD_mem_nonneg {l : List Int} (h : ∀ x ∈ l, 0 ≤ x) (b : Nat) : 0 ≤ l.getD b 0 := by
  rw [List.getD_eq_getElem?_getD]
  cases hf : l[b]? with
  | none => exact le_refl _
  | some y => exact h y (List.mem_of_getElem? hf)

theorem setup_defined {rd : ℚ → ℚ} (h : DoubleRounding rd) {g : GInfo} {limits : List Int} {r : Bool}
    (h0 : ∀ x ∈ limits, 0 ≤ x) (hW : 0 < g.total) (hW2 : g.total ≤ 2 ^ 49) (hWS : g.total ≤ 2 * limits.sum) :
    ∃ c, PCtx.setup? rd (-1) g limits r = some c := by
  cases r with
  | false => exact ⟨_, setup_plain ..⟩
  | true => obtain ⟨c, hc, _⟩ := relaxed_satisfiable h (-1) h0 hW hW2 hWS; exact ⟨c, hc⟩

/-- The limits of an intermediate partition are always defined. -/
theorem createKway_defined {rd : ℚ → ℚ} (h : DoubleRounding rd) {input : PCtx} {W : Int} (hi : LimitsOk rd input W)
    (hk2 : input.k < 2 ^ 31) {x : Nat} (hx : Step input.k x) {g : GInfo} (hg : g.total = W) :
    ∃ c, createKway? rd input g x = some c := by
  obtain ⟨hW, hW2, hi⟩ := hi
  obtain ⟨hx2, hxk, hx⟩ := hx
  rw [← hg] at hW hW2
  by_cases hxe : x = input.k
  · subst hxe
    have key : ∃ F : Nat → Int, (∀ b, b < input.k → input.totalUnrelaxed? rd b (b + 1) = some (F b)) ∧
        (∀ b, b < input.k → 0 ≤ F b) ∧ W ≤ 2 * ((List.range input.k).map F).sum := by
      rcases hi with ⟨hu, hlen, hpos, hroom⟩ | ⟨hi, hT⟩
      · refine ⟨fun b => input.unrelaxed.getD b 0, ?_, ?_, ?_⟩
        · intro b hb
          unfold PCtx.totalUnrelaxed?
          rw [if_neg (by rw [hu]; decide), slice_eq (by omega) (by omega)]
          unfold sumRange
          show some (∑ f ∈ Finset.Ico b (b + 1), _) = _
          rw [Nat.Ico_succ_singleton, Finset.sum_singleton]
        · intro b _
          exact getD_mem_nonneg hpos b
        · have h2 : (List.range input.k).map (fun b => input.unrelaxed.getD b 0) = input.unrelaxed := by
            apply List.ext_getElem
            · simp [hlen]
            · intro i h3 h4
              rw [List.getElem_map, List.getElem_range, List.getD_eq_getElem?_getD, List.getElem?_eq_getElem h4]
              rfl
          rw [h2]
          exact hroom
      · obtain ⟨F, hF⟩ := hi.limit h.toRounding
        have h1 : 0 ≤ F 1 ∧ input.total ≤ (input.k : Int) * F 1 := by
          have hk0 := hi.k
          have h0 := hi.total
          have := (hF 0 1 (by omega) (by omega)).2
          rw [Int.ceil_le] at this
          have hkq : (0 : ℚ) < input.k := by exact_mod_cast hi.k
          have h3 : (((1 - 0 : Nat) : ℚ) * input.total / input.k) = input.total / input.k := by norm_num
          rw [h3, div_le_iff₀ hkq] at this
          have h4 : input.total ≤ F 1 * (input.k : Int) := by exact_mod_cast this
          refine ⟨?_, by rw [mul_comm]; exact h4⟩
          by_contra hneg
          have h5 : F 1 * (input.k : Int) ≤ 0 := mul_nonpos_of_nonpos_of_nonneg (by omega) (by omega)
          omega
        refine ⟨fun _ => F 1, ?_, ?_, ?_⟩
        · intro b hb
          have := (hF b (b + 1) (by omega) (by omega)).1
          rwa [show b + 1 - b = 1 by omega] at this
        · intro b _; exact h1.1
        · rw [List.map_const', List.sum_replicate, List.length_range, nsmul_eq_mul]
          have := h1.2
          have h0 := hi.total
          omega
    obtain ⟨F, hF, hF0, hroom⟩ := key
    have h1 := kwayLoop_top hF input.k 0 (by omega)
    rw [← List.range_eq_range'] at h1
    unfold createKway?
    rw [h1, Option.bind_eq_bind, Option.bind_some]
    obtain ⟨c, hc⟩ := setup_defined (r := decide (g.n ≠ input.n)) h (g := g) (limits := (List.range input.k).map F)
      (by
        intro y hy
        obtain ⟨b, hb, rfl⟩ := List.mem_map.1 hy
        exact hF0 b (List.mem_range.1 hb)) hW hW2 (by rw [hg]; exact hroom)
    rw [hc]
    exact ⟨_, rfl⟩
  · obtain ⟨l, rfl⟩ : ∃ l, x = 2 ^ l := by rcases hx with hx | hx; exact absurd hx hxe; exact hx
    have hl0 : 0 < l := by
      rcases Nat.eq_zero_or_pos l with h0 | h0
      · rw [h0] at hx2; omega
      · exact h0
    by_cases hn : g.n = input.n
    · rcases hi with ⟨hu, hlen, _, _⟩ | ⟨hi, _⟩
      · obtain ⟨c, hc, _⟩ := (C58_explicit_limits (rd := rd) hu hlen hl0 hxk hk2 g).2 hn
        exact ⟨c, hc⟩
      · obtain ⟨c, hc, _⟩ := (C58_imbalance_limits h.toRounding hi hl0 hxk hk2 g).2 hn
        exact ⟨c, hc⟩
    · rcases hi with ⟨hu, hlen, hpos, hroom⟩ | ⟨hi, hT⟩
      · obtain ⟨c, hc, _⟩ := C58_explicit_satisfiable h hu hlen hpos hl0 hxk hk2 hn hW hW2 (by rw [hg]; exact hroom)
        exact ⟨c, hc⟩
      · obtain ⟨c, hc, _⟩ := C58_imbalance_satisfiable h hi hl0 hxk hk2 hn (by rw [hg, hT]) hW2
        exact ⟨c, hc⟩

/-! ## One extension -/

/-- The memory has room for the subgraphs of `g`. -/
def Room (s : Sizes) (g : LGraph) (k : Nat) : Prop :=
  g.length + k ≤ s.nodes ∧ g.m ≤ s.edges ∧ (g.nodeWeighted = true → g.length + k ≤ s.nw) ∧
    (g.edgeWeighted = true → g.m ≤ s.ew)

/-- What the extension of `p` to `desired` blocks leads to. -/
structure Extended (cfg : Cfg) (e : Env) (lazy : Bool) (s : St) (p : PG) (desired : Nat) (p' : PG) (s' : St) : Prop where
  g : p'.g = p.g
  k : p'.k = desired
  valid : p'.Valid
  size : s'.size = s.size
  ok : e.MemOk → s.ok = true → (lazy = true ∨ Room s.size p.g cfg.k) → s'.ok = true

/-- `x` blocks may be split into `y` blocks. -/
def Splits (k x y : Nat) : Prop := ∃ l, x = 2 ^ l ∧ x ≤ k ∧ (y = k ∨ (∃ j, l ≤ j ∧ y = 2 ^ j) ∧ y ≤ k)

theorem extendOnce_spec {cfg : Cfg} {e : Env} (he : e.Ok) (hk : cfg.k < 2 ^ 31) (lazy : Bool) (key : Key) (s : St)
    {p : PG} (hwf : p.g.WF) (hp : p.g.Positive) (hv : p.Valid) {desired : Nat} (hs : Splits cfg.k p.k desired) :
    ∃ r, extendOnce? cfg e lazy key s p desired = some r ∧ Extended cfg e lazy s p desired r.1 r.2 := by
  obtain ⟨g, k, part⟩ := p
  obtain ⟨l, h1, h2, h3⟩ := hs
  dsimp only at h1 h2 h3 hwf hp
  subst h1
  have hsch := he.sched key ⟨g, 2 ^ l, part⟩ hv
  dsimp only at hsch
  cases lazy with
  | true =>
    obtain ⟨p', bs, rs, pad, sub, a1, _, _, a4, _, _, a7⟩ := C31_extend_partition_lazy hwf hp hk h2 hv h3
      (he.bip key) (e.map0 key) hsch (e.nodes0 key) (e.mapping0 key) (e.slot0 key) (e.lazyMem key) (e.tmp key)
      (he.order key g.length)
    refine ⟨(⟨g, desired, p'⟩, { s with ok := s.ok && rs.all (·.2) }), ?_, rfl, rfl, a4, rfl, ?_⟩
    · unfold extendOnce?
      rw [if_pos rfl]
      dsimp only
      rw [a1]
      rfl
    · intro hm hok _
      show (s.ok && rs.all (·.2)) = true
      rw [hok, Bool.true_and, List.all_eq_true]
      exact a7 fun b => ⟨(hm.lazyMem key b).1, hm.tmp key b, fun _ => (hm.lazyMem key b).2.1,
        fun _ => (hm.lazyMem key b).2.2⟩
  | false =>
    obtain ⟨p', r, m, pad, a1, _, _, a4, _, _, a7⟩ := C31_extend_partition hwf hp hk h2 hv h3
      (he.bip key) (e.map0 key) hsch ⟨e.cells key, s.size, s.ok⟩ (e.slot0 key) (e.tmp key)
      (he.order key (2 ^ l)) (he.order key g.length)
    refine ⟨(⟨g, desired, p'⟩, { s with ok := m.ok }), ?_, rfl, rfl, a4, rfl, ?_⟩
    · unfold extendOnce?
      rw [if_neg (by decide)]
      dsimp only
      rw [a1]
      rfl
    · intro hm hok hroom
      obtain ⟨b1, b2, b3, b4⟩ : Room s.size g cfg.k := by
        rcases hroom with hroom | hroom
        · exact absurd hroom (by decide)
        · exact hroom
      exact a7 hok (hm.tmp key) b1 b2 b3 b4

/-! ## The loop of extensions -/

theorem extendLoop_spec {cfg : Cfg} {e : Env} (he : e.Ok) (hk : cfg.k < 2 ^ 31) (hml : 1 ≤ cfg.minLevels)
    {threads : Nat} (hth : 2 ^ cfg.minLevels * threads ≤ 2 ^ 32) (lazy : Bool) {desired : Nat} (key : Key) :
    ∀ fuel (s : St) (p : PG), p.g.WF → p.g.Positive → p.Valid → Splits cfg.k p.k desired → p.k < desired →
      desired ≤ p.k * 2 ^ fuel →
      ∃ r, extendLoop? cfg e lazy threads desired (fuel + 1) key s p = some r ∧ r.1.g = p.g ∧ r.1.Valid ∧
        Splits cfg.k r.1.k desired ∧ r.2.size = s.size ∧
        (e.MemOk → s.ok = true → (lazy = true ∨ Room s.size p.g cfg.k) → r.2.ok = true) := by
  intro fuel
  induction fuel with
  | zero =>
    intro s p hwf hp hv hs hlt hle
    omega
  | succ fuel ih =>
    intro s p hwf hp hv hs hlt hle
    rw [extendLoop?]
    split
    · rename_i hc
      obtain ⟨hc1, hc2⟩ := hc
      have hmod : 2 ^ cfg.minLevels * p.k % 2 ^ 32 = 2 ^ cfg.minLevels * p.k := by
        apply Nat.mod_eq_of_lt
        exact lt_of_lt_of_le (Nat.mul_lt_mul_of_pos_left hc2 (Nat.two_pow_pos _)) hth
      rw [hmod] at hc1 ⊢
      obtain ⟨l, hl, hlk, hd⟩ := hs
      have hnext : 2 ^ cfg.minLevels * p.k = 2 ^ (l + cfg.minLevels) := by rw [hl, ← pow_add, Nat.add_comm]
      have hdk : desired ≤ cfg.k := by rcases hd with hd | hd; omega; exact hd.2
      have hs' : Splits cfg.k p.k (2 ^ cfg.minLevels * p.k) :=
        ⟨l, hl, hlk, Or.inr ⟨⟨l + cfg.minLevels, by omega, hnext⟩, by omega⟩⟩
      obtain ⟨r, hr, hx⟩ := extendOnce_spec he hk lazy ((fuel + 1) :: key) s hwf hp hv hs'
      have hge : 2 * p.k ≤ 2 ^ cfg.minLevels * p.k :=
        Nat.mul_le_mul_right _ (le_trans (by norm_num) (Nat.pow_le_pow_right (by decide) hml : 2 ^ 1 ≤ 2 ^ cfg.minLevels))
      obtain ⟨r', b1, b2, b3, b4, b5, b6⟩ := ih r.2 r.1 (by rw [hx.g]; exact hwf) (by rw [hx.g]; exact hp) hx.valid
        (by
          rw [hx.k]
          refine ⟨l + cfg.minLevels, hnext, by omega, ?_⟩
          rcases hd with hd | ⟨⟨j, hj, hdj⟩, hd2⟩
          · exact Or.inl hd
          · refine Or.inr ⟨⟨j, ?_, hdj⟩, hd2⟩
            rw [hnext, hdj] at hc1
            exact le_of_lt ((Nat.pow_lt_pow_iff_right (by decide)).1 hc1))
        (by rw [hx.k]; exact hc1)
        (by
          rw [hx.k]
          refine le_trans hle ?_
          rw [pow_succ]
          calc p.k * (2 ^ fuel * 2) = 2 * p.k * 2 ^ fuel := by ring
            _ ≤ _ := Nat.mul_le_mul_right _ hge)
      refine ⟨r', ?_, b2.trans hx.g, b3, b4, b5.trans hx.size, ?_⟩
      · rw [hr]
        exact b1
      · intro hm hok hroom
        refine b6 hm (hx.ok hm hok hroom) ?_
        rw [hx.size, hx.g]
        exact hroom
    · exact ⟨_, rfl, rfl, hv, hs, rfl, fun _ h _ => h⟩

theorem extend_spec {cfg : Cfg} {e : Env} (he : e.Ok) (hk : cfg.k < 2 ^ 31) (hml : cfg.minLevels ≤ 30)
    {threads : Nat} (hth : 2 ^ cfg.minLevels * threads ≤ 2 ^ 32) (lazy : Bool) (key : Key) (s : St) {p : PG}
    (hwf : p.g.WF) (hp : p.g.Positive) (hv : p.Valid) {desired : Nat} (hs : Splits cfg.k p.k desired) :
    ∃ r, extend? cfg e lazy key threads s p desired = some r ∧ Extended cfg e lazy s p desired r.1 r.2 := by
  unfold extend?
  split
  · exact extendOnce_spec he hk lazy _ s hwf hp hv hs
  · rename_i h0
    rw [if_neg (by omega)]
    have hd : desired ≤ cfg.k := by
      obtain ⟨l, _, _, hd⟩ := hs
      rcases hd with hd | hd; omega; exact hd.2
    by_cases hlt : p.k < desired
    · have hp0 : 1 ≤ p.k := by
        obtain ⟨l, hl, _⟩ := hs
        rw [hl]; exact Nat.one_le_two_pow
      obtain ⟨r, a1, a2, a3, a4, a5, a6⟩ := extendLoop_spec he hk (by omega) hth lazy (desired := desired) key 32 s p
        hwf hp hv hs hlt
        (by
          have : 1 * 2 ^ 32 ≤ p.k * 2 ^ 32 := Nat.mul_le_mul_right _ hp0
          omega)
      obtain ⟨r', b1, b2⟩ := extendOnce_spec he hk lazy (33 :: key) r.2 (by rw [a2]; exact hwf) (by rw [a2]; exact hp)
        a3 a4
      refine ⟨r', ?_, b2.g.trans a2, b2.k, b2.valid, b2.size.trans a5, ?_⟩
      · rw [a1]; exact b1
      · intro hm hok hroom
        refine b2.ok hm (a6 hm hok hroom) ?_
        rw [a5, a2]
        exact hroom
    · have : extendLoop? cfg e lazy threads desired 33 key s p = some (p, s) := by
        rw [extendLoop?]
        rw [if_neg]
        rintro ⟨h1, h2⟩
        have hmod : 2 ^ cfg.minLevels * p.k % 2 ^ 32 = 2 ^ cfg.minLevels * p.k := by
          apply Nat.mod_eq_of_lt
          exact lt_of_lt_of_le (Nat.mul_lt_mul_of_pos_left h2 (Nat.two_pow_pos _)) hth
        rw [hmod] at h1
        have := Nat.mul_le_mul_right p.k (Nat.one_le_two_pow (n := cfg.minLevels))
        omega
      rw [this]
      exact extendOnce_spec he hk lazy (33 :: key) s hwf hp hv hs

end Verif.Multilevel
